import Verif.Props.Precon
import Verif.Props.SolverDoc
import Verif.Props.Stationary

/-!
# C22–C26 at the level of arrays

The solver programs run on the vector objects with the models of the vector functions, a matrix product kernel and a
preconditioner.  The mathematical theorems of `Props/SolverDoc.lean`, `Props/Stationary.lean` carry over by
`Prog.exec_refines`.
-/

namespace Lis
open Finset
variable {R S : Type} {n : ℕ}

theorem IsMul.matMul [NonUnitalNonAssocSemiring R] {a : ℕ → ℕ → R} {x y : ℕ → R} (h : IsMul n n a x y) (i : Fin n) :
    y i = matMul a (fun j : Fin n => x j) i := by
  rw [h i i.2, Finset.sum_range]; rfl

theorem IsMulH.matMulH [NonUnitalNonAssocSemiring R] [Star R] {a : ℕ → ℕ → R} {x y : ℕ → R} (h : IsMulH n n a x y)
    (i : Fin n) : y i = matMulH a (fun j : Fin n => x j) i := by
  rw [h i i.2, Finset.sum_range]; rfl

/-- a kernel is a correct product with the `n × n` matrix `a` (C05, C06) -/
def IsMatvec [NonUnitalNonAssocSemiring R] (n : ℕ) (a : ℕ → ℕ → R) (f : Arr R → Arr R → Option (Arr R)) : Prop :=
  ∀ x y : Arr R, n ≤ x.size → n ≤ y.size → Ok (f x y) fun y' => y'.size = y.size ∧ IsMul n n a x.get y'.get

/-- … with its conjugate transpose (C07) -/
def IsMatvech [NonUnitalNonAssocSemiring R] [Star R] (n : ℕ) (a : ℕ → ℕ → R) (f : Arr R → Arr R → Option (Arr R)) : Prop :=
  ∀ x y : Arr R, n ≤ x.size → n ≤ y.size → Ok (f x y) fun y' => y'.size = y.size ∧ IsMulH n n a x.get y'.get

/-- the array-level calls of a solver: product kernels `mv`, `mvh`, preconditioner, triangular solve, diagonal -/
def arrayKit (mv mvh : Arr R → Arr R → Option (Arr R)) (ps psh ls : ℕ → ℕ → Vecs R → Option (Vecs R))
    (rdg : ℕ → Vecs R → Option (Vecs R)) (sqrt fabs : R → S) (omp : Option (OmpRun R)) (ompS : Option (OmpRun S)) :
    AKit R S :=
  ⟨onArr mv, onArr mvh, ps, psh, ls, rdg, sqrt, fabs, omp, ompS⟩

theorem arrayKit_implements [NonUnitalNonAssocSemiring R] [Star R] [AddCommMonoid S] {a : ℕ → ℕ → R}
    {mv mvh : Arr R → Arr R → Option (Arr R)} (hmv : IsMatvec n a mv) (hmvh : IsMatvech n a mvh)
    {ps psh ls : ℕ → ℕ → Vecs R → Option (Vecs R)} {mps mpsh mls : (Fin n → R) → Fin n → R}
    (hps : MapsVec n ps mps) (hpsh : MapsVec n psh mpsh) (hls : MapsVec n ls mls)
    {rdg : ℕ → Vecs R → Option (Vecs R)} {mrdg : Fin n → R}
    (hrdg : ∀ x (h : Vecs R), h.Good n → Ok (rdg x h) fun h' => h'.Good n ∧ h'.vecs n = Function.update (h.vecs n) x mrdg)
    (sqrt fabs : R → S) {omp : Option (OmpRun R)} {ompS : Option (OmpRun S)} (ho : GoodRun n omp) (hoS : GoodRun n ompS) :
    (arrayKit mv mvh ps psh ls rdg sqrt fabs omp ompS).Implements (mathKit a sqrt fabs mps mpsh mls mrdg) := by
  have len : ∀ {h : Vecs R}, h.Good n → ∀ v w, (h v).n = (h w).n := fun hg v w => by rw [(hg v).1, (hg w).1]
  refine ⟨?_, ?_, hps, hpsh, hls, hrdg, ?_, ?_⟩
  · exact onArr_maps fun x y hx hy => (hmv x y hx hy).mono fun y' h => ⟨h.1, fun i => h.2.matMul i⟩
  · exact onArr_maps fun x y hx hy => (hmvh x y hx hy).mono fun y' h => ⟨h.1, fun i => h.2.matMulH i⟩
  · intro o h hg
    cases o with
    | dot x y =>
      simp only [VRed.exec, arrayKit, VRed.run, mathKit]
      rw [vectorDot_spec omp h x y (hg.wf x) (hg.wf y) (len hg x y) (by rw [(hg x).1]; exact ho), (hg x).1, Finset.sum_range]
      rfl
    | nhdot x y =>
      simp only [VRed.exec, arrayKit, VRed.run, mathKit]
      rw [vectorNhdot_spec omp h x y (hg.wf x) (hg.wf y) (len hg x y) (by rw [(hg x).1]; exact ho), (hg x).1, Finset.sum_range]
      rfl
  · intro o h hg
    cases o with
    | nrm2 x =>
      simp only [VNorm.exec, arrayKit, VNorm.run, mathKit]
      rw [vectorNrm2_spec sqrt omp h x (hg.wf x) (by rw [(hg x).1]; exact ho), (hg x).1, Finset.sum_range]
      rfl
    | nrm1 x =>
      simp only [VNorm.exec, arrayKit, VNorm.run, mathKit]
      rw [vectorNrm1_spec fabs ompS h x (hg.wf x) (by rw [(hg x).1]; exact hoS), (hg x).1, Finset.sum_range]
      rfl

theorem mathKit_linear [CommRing R] [Star R] [AddCommMonoid S] (a : ℕ → ℕ → R) (sqrt fabs : R → S)
    (ps psh ls : (Fin n → R) → Fin n → R) (rdg : Fin n → R) : (mathKit a sqrt fabs ps psh ls rdg).Linear := by
  intro c x y
  funext i
  simp only [mathKit, matMul, Finset.mul_sum, ← Finset.sum_add_distrib]
  exact Finset.sum_congr rfl fun j _ => by ring

/-- the Krylov solvers call neither `lis_matrix_solve` nor `lis_matrix_get_diagonal`; these stand in for them -/
def krylovKit [Zero R] (mv mvh : Arr R → Arr R → Option (Arr R)) (ps psh : ℕ → ℕ → Vecs R → Option (Vecs R))
    (sqrt fabs : R → S) (omp : Option (OmpRun R)) (ompS : Option (OmpRun S)) : AKit R S :=
  arrayKit mv mvh ps psh psolveNone (fun x h => (vectorSetAll 0 x h).map Prod.snd) sqrt fabs omp ompS

/-- the mathematical counterpart -/
abbrev krylovMath [NonUnitalNonAssocSemiring R] [Star R] [AddCommMonoid S] (a : ℕ → ℕ → R) (sqrt fabs : R → S)
    (ps psh : (Fin n → R) → Fin n → R) : Kit R S n := mathKit a sqrt fabs ps psh id 0

theorem krylovKit_implements [NonUnitalNonAssocSemiring R] [Star R] [AddCommMonoid S] {a : ℕ → ℕ → R}
    {mv mvh : Arr R → Arr R → Option (Arr R)} (hmv : IsMatvec n a mv) (hmvh : IsMatvech n a mvh)
    {ps psh : ℕ → ℕ → Vecs R → Option (Vecs R)} {mps mpsh : (Fin n → R) → Fin n → R}
    (hps : MapsVec n ps mps) (hpsh : MapsVec n psh mpsh) (sqrt fabs : R → S)
    {omp : Option (OmpRun R)} {ompS : Option (OmpRun S)} (ho : GoodRun n omp) (hoS : GoodRun n ompS) :
    (krylovKit mv mvh ps psh sqrt fabs omp ompS).Implements (krylovMath a sqrt fabs mps mpsh) :=
  arrayKit_implements hmv hmvh hps hpsh (psolveNone_maps n)
    (fun x h hg => Ok_of_assigned hg (vectorSetAll_spec 0 h x (hg.wf x))) sqrt fabs ho hoS

/-- **C22–C25 on arrays.**  Any of the Krylov solvers, any correct product kernels for an `n × n` matrix `a` (any storage
format), any preconditioner that computes a function, any thread count and reduction schedule: the run stays inside all
arrays, keeps the status contract, reports the residual of the `x` it returns, and after `LIS_SUCCESS` that `x` meets the
documented condition. -/
theorem krylov_array [CommRing R] [Div R] [Star R] [DecidableEq R] {a : ℕ → ℕ → R}
    {mv mvh : Arr R → Arr R → Option (Arr R)} (hmv : IsMatvec n a mv) (hmvh : IsMatvech n a mvh)
    {ps psh : ℕ → ℕ → Vecs R → Option (Vecs R)} {mps mpsh : (Fin n → R) → Fin n → R}
    (hps : MapsVec n ps mps) (hpsh : MapsVec n psh mpsh) {sqrt fabs : R → ℝ} (h2 : ∀ r, 0 ≤ sqrt r) (h1 : ∀ r, 0 ≤ fabs r)
    {omp : Option (OmpRun R)} {ompS : Option (OmpRun ℝ)} (ho : GoodRun n omp) (hoS : GoodRun n ompS)
    (k : Krylov) (o : Opts R ℝ) (ht : 0 ≤ o.tol) (hw : o.conv = .nrm1B → o.tol ≤ o.tolW) (junk : ℝ)
    {h : Vecs R} (hg : h.Good n) {hist : Arr ℝ} (hsz : o.maxiter < hist.size) (hz : o.initZero → h.vecs n hX = 0) :
    let K := krylovMath a sqrt fabs mps mpsh
    Ok ((k.prog junk o).exec (krylovKit mv mvh ps psh sqrt fabs omp ompS) ⟨h, hist⟩) fun r =>
      r.2.h.Good n ∧ Contract K o junk (k.brk K) ⟨h.vecs n, hist⟩ ⟨r.2.h.vecs n, r.2.hist⟩ r.1 ∧
      ReportsTrue K o junk ⟨h.vecs n, hist⟩ ⟨r.2.h.vecs n, r.2.hist⟩ r.1 ∧
      (r.1.ret = .success → MeetsTol K o (h.vecs n hB) (h.vecs n hX) (r.2.h.vecs n hX)) := by
  intro K
  have hlin : K.Linear := mathKit_linear a sqrt fabs mps mpsh id 0
  have h1' : ∀ v, 0 ≤ K.nrm1 v := fun v => by
    show (0 : ℝ) ≤ ∑ i, fabs (v i)
    exact Finset.sum_nonneg fun i _ => h1 _
  refine Prog.exec_refines (krylovKit_implements hmv hmvh hps hpsh sqrt fabs ho hoS) (k.prog junk o)
    (Q := fun out s' => Contract K o junk (k.brk K) ⟨h.vecs n, hist⟩ s' out ∧ ReportsTrue K o junk ⟨h.vecs n, hist⟩ s' out ∧
      (out.ret = .success → MeetsTol K o (h.vecs n hB) (h.vecs n hX) (s'.h hX))) hg ?_
  obtain ⟨r, hr, c1⟩ := krylov_status k K o junk ⟨h.vecs n, hist⟩ hsz
  obtain ⟨r', hr', c2⟩ := krylov_residual k K hlin o junk ⟨h.vecs n, hist⟩ hsz hz
  obtain ⟨r'', hr'', c3⟩ := krylov_success_meetsTol k K hlin (fun v => h2 _) h1'
    o ht hw junk ⟨h.vecs n, hist⟩ hsz hz
  rw [hr] at hr' hr''
  cases hr'; cases hr''
  exact ⟨r, hr, c1, c2, c3⟩

/-! ### CSR -/

theorem isMatvec_csr [NonUnitalNonAssocSemiring R] {A : Csr R} (hA : A.WF) (hnp : A.np = A.n) :
    IsMatvec A.n A.entry (matvecCsr A) := by
  intro x y hx hy
  refine (matvecCsr_spec A hA x y (by omega) hy).mono ?_
  rintro y' ⟨h1, h2, -⟩
  rw [hnp] at h2
  exact ⟨h1, h2⟩

theorem isMatvech_csr [NonUnitalNonAssocSemiring R] [StarRing R] {A : Csr R} (hA : A.WF) (hnp : A.np = A.n) :
    IsMatvech A.n A.entry (matvechCsr A) := by
  intro x y hx hy
  refine (matvechCsr_spec A hA x y hx (by omega)).mono ?_
  rintro y' ⟨h1, h2, -⟩
  rw [hnp] at h2
  exact ⟨h1, h2⟩

theorem isMatvec_split [NonUnitalNonAssocSemiring R] {A : SplitCsr R} (hA : A.WF) (hnp : A.np = A.n) :
    IsMatvec A.n A.entry (matvecSplitCsr A) := by
  intro x y hx hy
  refine (matvecSplitCsr_spec A hA x y (by omega) hy).mono ?_
  rintro y' ⟨h1, h2, -⟩
  rw [hnp] at h2
  exact ⟨h1, h2⟩

theorem isMatvech_split [NonUnitalNonAssocSemiring R] [StarRing R] {A : SplitCsr R} (hA : A.WF) (hnp : A.np = A.n) :
    IsMatvech A.n A.entry (matvechSplitCsr A) := by
  intro x y hx hy
  refine (matvechSplitCsr_spec A hA hnp x y (by omega) (by omega)).mono ?_
  rintro y' ⟨h1, h2, -⟩
  rw [hnp] at h2
  exact ⟨h1, h2⟩

/-! ### triangular solves as functions -/

/-- `(D + a) y = r` on `Fin n` -/
def TriRel [NonUnitalNonAssocSemiring R] (D : ℕ → R) (a : ℕ → ℕ → R) (y r : Fin n → R) : Prop :=
  ∀ i : Fin n, D i * y i + matMul a y i = r i

theorem SolvesTri.rel [NonUnitalNonAssocSemiring R] {D : ℕ → R} {a : ℕ → ℕ → R} {x b : ℕ → R} (h : SolvesTri n D a x b) :
    TriRel (n := n) D a (fun i => x i) (fun i => b i) := by
  intro i
  have := h i i.2
  rw [Finset.sum_range] at this
  exact this

theorem triRel_unique_lower [CommRing R] {D wd : ℕ → R} {a : ℕ → ℕ → R} (hwd : ∀ i, i < n → D i * wd i = 1)
    (hl : ∀ i j, i < n → i ≤ j → a i j = 0) {y y' r : Fin n → R} (h : TriRel D a y r) (h' : TriRel D a y' r) : y = y' := by
  have key : ∀ k (i : Fin n), i.1 = k → y i = y' i := by
    intro k
    induction k using Nat.strong_induction_on with
    | _ k ih =>
      intro i hi
      have e := (h i).trans (h' i).symm
      have es : matMul a y i = matMul a y' i := by
        refine Finset.sum_congr rfl fun j _ => ?_
        by_cases hj : j.1 < i.1
        · rw [ih j.1 (by omega) j rfl]
        · rw [hl i j i.2 (by omega), zero_mul, zero_mul]
      rw [es] at e
      have e2 : D i * y i = D i * y' i := by linear_combination e
      linear_combination (y' i - y i) * hwd i i.2 + wd i * e2
  exact funext fun i => key i i rfl

theorem triRel_unique_upper [CommRing R] {D wd : ℕ → R} {a : ℕ → ℕ → R} (hwd : ∀ i, i < n → D i * wd i = 1)
    (hl : ∀ i j, i < n → j ≤ i → a i j = 0) {y y' r : Fin n → R} (h : TriRel D a y r) (h' : TriRel D a y' r) : y = y' := by
  have key : ∀ k (i : Fin n), n - i.1 = k → y i = y' i := by
    intro k
    induction k using Nat.strong_induction_on with
    | _ k ih =>
      intro i hi
      have e := (h i).trans (h' i).symm
      have es : matMul a y i = matMul a y' i := by
        refine Finset.sum_congr rfl fun j _ => ?_
        by_cases hj : i.1 < j.1
        · rw [ih (n - j.1) (by omega) j rfl]
        · rw [hl i j i.2 (by omega), zero_mul, zero_mul]
      rw [es] at e
      have e2 : D i * y i = D i * y' i := by linear_combination e
      linear_combination (y' i - y i) * hwd i i.2 + wd i * e2
  exact funext fun i => key (n - i.1) i rfl

theorem SplitCsr.low_zero [AddCommMonoid R] {A : SplitCsr R} (hs : A.Strict) (i j : ℕ) (hi : i < A.n)
    (hij : i ≤ j) : A.L.entry i j = 0 :=
  Csr.entry_absent fun k k1 k2 => by have := hs.low i hi k k1 k2; omega

theorem SplitCsr.up_zero [AddCommMonoid R] {A : SplitCsr R} (hs : A.Strict) (i j : ℕ) (hi : i < A.n)
    (hij : j ≤ i) : A.U.entry i j = 0 :=
  Csr.entry_absent fun k k1 k2 => by have := hs.up i hi k k1 k2; omega

/-- `lis_matrix_solve(…,LIS_MATRIX_LOWER)` as a function: the solution of `(D+L) y = r` -/
theorem solveLower_maps [CommRing R] {A : SplitCsr R} (hA : A.WF) (hs : A.Strict) {wd : Arr R} (hw : A.n ≤ wd.size)
    {D : ℕ → R} (hwd : ∀ i, i < A.n → D i * wd.get i = 1) :
    ∃ m : (Fin A.n → R) → Fin A.n → R, (∀ r, TriRel D A.L.entry (m r) r) ∧ MapsVec A.n (solveLowerCsr A wd) m := by
  have : Inhabited R := ⟨0⟩
  refine maps_of_rel (rel := fun y r => TriRel D A.L.entry y r)
    (fun r y y' h h' => triRel_unique_lower hwd (fun i j hi hij => SplitCsr.low_zero hs i j hi hij) h h') ?_
  intro x y h _ hg
  refine (solveLowerCsr_spec hA hs hw (hg x).2 (hg y).2 hwd).mono ?_
  rintro h' ⟨h1, h2⟩
  exact ⟨h1.good hg, fun w hw => h1.vecs w hw, h2.rel⟩

/-- SSOR as a function -/
theorem solveSsor_maps [CommRing R] {A : SplitCsr R} (hA : A.WF) (hs : A.Strict) {wd : Arr R} (hw : A.n ≤ wd.size)
    {D : ℕ → R} (hwd : ∀ i, i < A.n → D i * wd.get i = 1) :
    ∃ m : (Fin A.n → R) → Fin A.n → R,
      (∀ r, ∃ z, TriRel D A.L.entry z r ∧ TriRel D A.U.entry (m r) fun i => D i * z i) ∧
      MapsVec A.n (solveSsorCsr A wd) m := by
  have : Inhabited R := ⟨0⟩
  refine maps_of_rel (rel := fun y r => ∃ z, TriRel D A.L.entry z r ∧ TriRel D A.U.entry y fun i => D i * z i) ?_ ?_
  · rintro r y y' ⟨z, h1, h2⟩ ⟨z', h1', h2'⟩
    have := triRel_unique_lower hwd (fun i j hi hij => SplitCsr.low_zero hs i j hi hij) h1 h1'
    subst this
    exact triRel_unique_upper hwd (fun i j hi hij => SplitCsr.up_zero hs i j hi hij) h2 h2'
  · intro x y h _ hg
    refine (solveSsorCsr_spec hA hs hw (hg x).2 (hg y).2 hwd).mono ?_
    rintro h' ⟨h1, z, h2, h3⟩
    exact ⟨h1.good hg, fun w hw => h1.vecs w hw, _, h2.rel, h3.rel⟩

theorem SolvesTriH.rel [NonUnitalNonAssocSemiring R] [Star R] {D : ℕ → R} {a : ℕ → ℕ → R} {x b : ℕ → R}
    (h : SolvesTriH n D a x b) :
    TriRel (n := n) (fun i => star (D i)) (fun i j => star (a j i)) (fun i => x i) (fun i => b i) := by
  intro i
  have := h i i.2
  rw [Finset.sum_range] at this
  exact this

/-- conjugate transposed SSOR as a function -/
theorem solvehSsor_maps [CommRing R] [StarRing R] {A : SplitCsr R} (hA : A.WF) (hs : A.Strict) (hnp : A.np = A.n)
    {wd : Arr R} (hw : A.n ≤ wd.size) {D : ℕ → R} (hwd : ∀ i, i < A.n → D i * wd.get i = 1) :
    ∃ m : (Fin A.n → R) → Fin A.n → R, MapsVec A.n (solvehSsorCsr star A wd) m := by
  have : Inhabited R := ⟨0⟩
  have hwd' : ∀ i, i < A.n → star (D i) * star (wd.get i) = 1 := fun i hi => star_wd (hwd i hi)
  refine (fun ⟨m, _, hm⟩ => ⟨m, hm⟩ : _ → _) <| maps_of_rel (n := A.n) (f := solvehSsorCsr star A wd)
    (rel := fun y r => ∃ z : Fin A.n → R, TriRel (fun i => star (D i)) (fun i j => star (A.U.entry j i)) z r ∧
      TriRel (fun i => star (D i)) (fun i j => star (A.L.entry j i)) y fun i => star (D i) * z i) ?_ ?_
  · rintro r y y' ⟨z, h1, h2⟩ ⟨z', h1', h2'⟩
    have : z = z' := by
      funext i
      -- the transposed strict upper triangle is strictly lower
      have key : ∀ k (i : Fin A.n), i.1 = k → z i = z' i := by
        intro k
        induction k using Nat.strong_induction_on with
        | _ k ih =>
          intro i hi
          have e := (h1 i).trans (h1' i).symm
          have es : matMul (fun i j => star (A.U.entry j i)) z i = matMul (fun i j => star (A.U.entry j i)) z' i := by
            refine Finset.sum_congr rfl fun j _ => ?_
            by_cases hj : j.1 < i.1
            · rw [ih j.1 (by omega) j rfl]
            · simp only [SplitCsr.up_zero hs j i j.2 (by omega), star_zero, zero_mul]
          rw [es] at e
          have e2 : star (D i) * z i = star (D i) * z' i := by linear_combination e
          linear_combination (z' i - z i) * hwd' i i.2 + star (wd.get i) * e2
      exact key i i rfl
    subst this
    have key : ∀ k (i : Fin A.n), A.n - i.1 = k → y i = y' i := by
      intro k
      induction k using Nat.strong_induction_on with
      | _ k ih =>
        intro i hi
        have e := (h2 i).trans (h2' i).symm
        have es : matMul (fun i j => star (A.L.entry j i)) y i = matMul (fun i j => star (A.L.entry j i)) y' i := by
          refine Finset.sum_congr rfl fun j _ => ?_
          by_cases hj : i.1 < j.1
          · rw [ih (A.n - j.1) (by omega) j rfl]
          · simp only [SplitCsr.low_zero hs j i j.2 (by omega), star_zero, zero_mul]
        rw [es] at e
        have e2 : star (D i) * y i = star (D i) * y' i := by linear_combination e
        linear_combination (y' i - y i) * hwd' i i.2 + star (wd.get i) * e2
    exact funext fun i => key (A.n - i.1) i rfl
  · intro x y h _ hg
    refine (solvehSsorCsr_spec hA hs hnp hw (hg x).1 (hg y).1 (hg.wf x) (hg.wf y) hwd).mono ?_
    rintro h' ⟨h1, z, h2, h3⟩
    exact ⟨h1.good hg, fun w hw => h1.vecs w hw, _, h2.rel, h3.rel⟩

/-! ### the solvers on a CSR matrix -/

/-- the documented condition, spelled out: norms of `b - A x` for the matrix `a` -/
def CsrMeets [CommRing R] [Star R] (n : ℕ) (a : ℕ → ℕ → R) (sqrt fabs : R → ℝ) (o : Opts R ℝ) (b x0 x : ℕ → R) : Prop :=
  let res (x : ℕ → R) (i : ℕ) := b i - ∑ j ∈ range n, a i j * x j
  let nrm2 (v : ℕ → R) := sqrt (∑ i ∈ range n, star (v i) * v i)
  let nrm1 (v : ℕ → R) := ∑ i ∈ range n, fabs (v i)
  match o.conv with
  | .nrm2R => nrm2 (res x) ≤ o.tol * nrm2 (res x0)
  | .nrm2B => nrm2 (res x) ≤ o.tol * (if nrm2 b = 0 then 1 else nrm2 b)
  | .nrm1B => nrm1 (res x) ≤ o.tolW * nrm1 b + o.tol

theorem MeetsTol.csr [CommRing R] [Star R] {a : ℕ → ℕ → R} {sqrt fabs : R → ℝ} {o : Opts R ℝ}
    {mps mpsh : (Fin n → R) → Fin n → R} {b x0 x : ℕ → R}
    (h : MeetsTol (krylovMath a sqrt fabs mps mpsh) o (fun i : Fin n => b i) (fun i => x0 i) (fun i => x i)) :
    CsrMeets n a sqrt fabs o b x0 x := by
  unfold MeetsTol at h
  unfold CsrMeets
  simp only [mathKit, matMul] at h
  simp only [Finset.sum_range]
  exact h

/-- **C22–C24 for CSR without preconditioner.** -/
theorem csr_none_success [CommRing R] [Div R] [StarRing R] [DecidableEq R] {A : Csr R} (hA : A.WF) (hnp : A.np = A.n)
    {sqrt fabs : R → ℝ} (h2 : ∀ r, 0 ≤ sqrt r) (h1 : ∀ r, 0 ≤ fabs r)
    {omp : Option (OmpRun R)} {ompS : Option (OmpRun ℝ)} (ho : GoodRun A.n omp) (hoS : GoodRun A.n ompS)
    (k : Krylov) (o : Opts R ℝ) (ht : 0 ≤ o.tol) (hw : o.conv = .nrm1B → o.tol ≤ o.tolW) (junk : ℝ)
    {h : Vecs R} (hg : h.Good A.n) {hist : Arr ℝ} (hsz : o.maxiter < hist.size)
    (hz : o.initZero → ∀ i, i < A.n → h.el hX i = 0) :
    Ok ((k.prog junk o).exec (krylovKit (matvecCsr A) (matvechCsr A) psolveNone psolveNone sqrt fabs omp ompS) ⟨h, hist⟩)
      fun r => r.1.ret = .success → CsrMeets A.n A.entry sqrt fabs o (h.el hB) (h.el hX) (r.2.h.el hX) := by
  refine (krylov_array (isMatvec_csr hA hnp) (isMatvech_csr hA hnp) (psolveNone_maps A.n) (psolveNone_maps A.n) h2 h1 ho hoS
    k o ht hw junk hg hsz fun hi => funext fun i => hz hi i i.2).mono ?_
  rintro r ⟨-, -, -, h4⟩ hs
  exact (h4 hs).csr

/-- **… with the Jacobi preconditioner.** -/
theorem csr_jacobi_success [Field R] [StarRing R] [DecidableEq R] {A : Csr R} (hA : A.WF) (hnp : A.np = A.n)
    (hd : ∀ i, i < A.n → A.StoresDiag i → A.DiagOnce i) {pj : Arr R} (hj : A.n ≤ pj.size)
    {sqrt fabs : R → ℝ} (h2 : ∀ r, 0 ≤ sqrt r) (h1 : ∀ r, 0 ≤ fabs r)
    {omp : Option (OmpRun R)} {ompS : Option (OmpRun ℝ)} (ho : GoodRun A.n omp) (hoS : GoodRun A.n ompS)
    (k : Krylov) (o : Opts R ℝ) (ht : 0 ≤ o.tol) (hw : o.conv = .nrm1B → o.tol ≤ o.tolW) (junk : ℝ)
    {h : Vecs R} (hg : h.Good A.n) {hist : Arr ℝ} (hsz : o.maxiter < hist.size)
    (hz : o.initZero → ∀ i, i < A.n → h.el hX i = 0) :
    Ok (do
      let d ← createJacobi (getDiagonalCsr A) A.n pj
      (k.prog junk o).exec (krylovKit (matvecCsr A) (matvechCsr A) (psolveJacobi id A.n d) (psolveJacobi star A.n d)
        sqrt fabs omp ompS) ⟨h, hist⟩)
      fun r => r.1.ret = .success → CsrMeets A.n A.entry sqrt fabs o (h.el hB) (h.el hX) (r.2.h.el hX) := by
  rw [Ok_bind]
  refine (createJacobi_spec hA hd hj).mono ?_
  rintro d ⟨s, -⟩
  refine (krylov_array (isMatvec_csr hA hnp) (isMatvech_csr hA hnp) (psolveJacobi_maps id (by omega))
    (psolveJacobi_maps star (by omega)) h2 h1 ho hoS k o ht hw junk hg hsz fun hi => funext fun i => hz hi i i.2).mono ?_
  rintro r ⟨-, -, -, h4⟩ hs
  exact (h4 hs).csr

/-- **… with the SSOR preconditioner** (the matrix is split) **.** -/
theorem csr_ssor_success [Field R] [StarRing R] [DecidableEq R] {A : SplitCsr R} (hA : A.WF) (hs : A.Strict)
    (hnp : A.np = A.n) (w : R) (h0 : ∀ i, i < A.n → w * A.D.get i ≠ 0) {pj : Arr R} (hj : A.n ≤ pj.size)
    {sqrt fabs : R → ℝ} (h2 : ∀ r, 0 ≤ sqrt r) (h1 : ∀ r, 0 ≤ fabs r)
    {omp : Option (OmpRun R)} {ompS : Option (OmpRun ℝ)} (ho : GoodRun A.n omp) (hoS : GoodRun A.n ompS)
    (k : Krylov) (o : Opts R ℝ) (ht : 0 ≤ o.tol) (hw : o.conv = .nrm1B → o.tol ≤ o.tolW) (junk : ℝ)
    {h : Vecs R} (hg : h.Good A.n) {hist : Arr ℝ} (hsz : o.maxiter < hist.size)
    (hz : o.initZero → ∀ i, i < A.n → h.el hX i = 0) :
    Ok (do
      let wd ← makeWd w A.n A.D pj
      (k.prog junk o).exec (krylovKit (matvecSplitCsr A) (matvechSplitCsr A) (solveSsorCsr A wd) (solvehSsorCsr star A wd)
        sqrt fabs omp ompS) ⟨h, hist⟩)
      fun r => r.1.ret = .success → CsrMeets A.n A.entry sqrt fabs o (h.el hB) (h.el hX) (r.2.h.el hX) := by
  rw [Ok_bind]
  have := hA.dsz
  refine (makeWd_spec w (by omega) hj).mono ?_
  rintro wd ⟨s, g⟩
  have hwd : ∀ i, i < A.n → w * A.D.get i * wd.get i = 1 := fun i hi => by rw [g i hi, mul_one_div_cancel (h0 i hi)]
  obtain ⟨m, -, hm⟩ := solveSsor_maps hA hs (wd := wd) (by omega) hwd
  obtain ⟨m', hm'⟩ := solvehSsor_maps hA hs hnp (wd := wd) (by omega) hwd
  refine (krylov_array (isMatvec_split hA hnp) (isMatvech_split hA hnp) hm hm'
    h2 h1 ho hoS k o ht hw junk hg hsz fun hi => funext fun i => hz hi i i.2).mono ?_
  rintro r ⟨-, -, -, h4⟩ hs
  exact (h4 hs).csr

end Lis
