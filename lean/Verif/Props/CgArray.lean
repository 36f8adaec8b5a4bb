import Verif.Props.CgExact
import Verif.Props.ArraySolver
import Mathlib.LinearAlgebra.Matrix.ToLin
import Mathlib.Analysis.Real.Sqrt
import Mathlib.LinearAlgebra.FiniteDimensional.Lemmas

/-!
# C44 on arrays: `lis_cg` with the kernels and preconditioners of Lis
-/

namespace Lis
open Matrix
variable {n : ℕ}

/-- the `n × n` matrix with the entries `a i j` -/
abbrev toMat {R : Type} (n : ℕ) (a : ℕ → ℕ → R) : Matrix (Fin n) (Fin n) R := fun i j => a i j

theorem Spd.solvable {A : Matrix (Fin n) (Fin n) ℝ} (hA : Spd A) (b : Fin n → ℝ) : ∃ x, A *ᵥ x = b := by
  have hi : Function.Injective (Matrix.toLin' A) := by
    rw [injective_iff_map_eq_zero]
    intro x hx
    by_contra hne
    have := hA.pos x hne
    rw [Matrix.toLin'_apply] at hx
    rw [hx, dotProduct_zero] at this
    exact lt_irrefl _ this
  obtain ⟨x, hx⟩ := (LinearMap.injective_iff_surjective.1 hi) b
  exact ⟨x, hx⟩

theorem Spd.diag {A : Matrix (Fin n) (Fin n) ℝ} (hA : Spd A) (i : Fin n) : 0 < A i i := by
  have := hA.pos (Pi.single i 1) (by simp)
  simpa using this

theorem krylovMath_exact {a : ℕ → ℕ → ℝ} {sqrt fabs : ℝ → ℝ} {mps mpsh : (Fin n → ℝ) → Fin n → ℝ}
    {M : Matrix (Fin n) (Fin n) ℝ} (hM : ∀ x, mps x = M *ᵥ x) :
    (krylovMath a sqrt fabs mps mpsh).Exact (toMat n a) M := by
  refine ⟨fun x => rfl, hM, fun x y => ?_, fun x y => rfl⟩
  simp only [mathKit, star_trivial]
  rfl

/-- **C44 on arrays.** CG with product kernels for any storage format of a symmetric positive definite matrix and any
preconditioner that multiplies by a symmetric positive definite matrix `M`; `maxiter ≥ n`; exact real arithmetic: the run
stays inside its arrays, returns `LIS_SUCCESS` after at most `n` iterations (or 1), `x` meets the documented condition,
and its error in the energy norm is at most that of the initial guess. -/
theorem cg_array_spd {a : ℕ → ℕ → ℝ} (hA : Spd (toMat n a)) {mv mvh : Arr ℝ → Arr ℝ → Option (Arr ℝ)}
    (hmv : IsMatvec n a mv) (hmvh : IsMatvech n a mvh)
    {ps psh : ℕ → ℕ → Vecs ℝ → Option (Vecs ℝ)} {mps mpsh : (Fin n → ℝ) → Fin n → ℝ}
    (hps : MapsVec n ps mps) (hpsh : MapsVec n psh mpsh) {M : Matrix (Fin n) (Fin n) ℝ} (hM : Spd M)
    (hmps : ∀ x, mps x = M *ᵥ x) {omp ompS : Option (OmpRun ℝ)} (ho : GoodRun n omp) (hoS : GoodRun n ompS)
    (o : Opts ℝ ℝ) (ht : 0 ≤ o.tol) (hw : o.conv = .nrm1B → o.tol ≤ o.tolW) (hmax : n ≤ o.maxiter) (junk : ℝ)
    {h : Vecs ℝ} (hg : h.Good n) {hist : Arr ℝ} (hsz : o.maxiter < hist.size)
    (hz : o.initZero → ∀ i, i < n → h.el hX i = 0) :
    Ok ((lisCg junk o).exec (krylovKit mv mvh ps psh Real.sqrt abs omp ompS) ⟨h, hist⟩) fun r =>
      r.1.ret = .success ∧ (r.1.iter ≤ n ∨ r.1.iter = 1) ∧
      CsrMeets n a Real.sqrt abs o (h.el hB) (h.el hX) (r.2.h.el hX) ∧
      ∀ xs : Fin n → ℝ, toMat n a *ᵥ xs = (fun i : Fin n => h.el hB i) →
        energy (toMat n a) xs (fun i => r.2.h.el hX i) ≤ energy (toMat n a) xs (fun i => h.el hX i) := by
  have hK := krylovMath_exact (a := a) (sqrt := Real.sqrt) (fabs := abs) (mpsh := mpsh) hmps
  obtain ⟨K, hKe⟩ : ∃ K, K = krylovMath a Real.sqrt abs mps mpsh := ⟨_, rfl⟩
  rw [← hKe] at hK
  have h2 : ∀ v, 0 ≤ K.nrm2 v := fun v => by rw [hKe]; exact Real.sqrt_nonneg _
  have h1 : ∀ v, 0 ≤ K.nrm1 v := fun v => by rw [hKe]; show (0 : ℝ) ≤ ∑ i, |v i|; exact Finset.sum_nonneg fun i _ => abs_nonneg (v i)
  have z2 : K.nrm2 0 = 0 := by rw [hKe]; simp [mathKit]
  have z1 : K.nrm1 0 = 0 := by rw [hKe]; simp [mathKit]
  have key := fun (xs : Fin n → ℝ) (hxs : toMat n a *ᵥ xs = h.vecs n hB) =>
    lisCg_spd hK hA hM h2 h1 z2 z1 o ht hw junk ⟨h.vecs n, hist⟩ hsz hmax
      (fun hi => funext fun i => hz hi i i.2) (xs := xs) hxs
  obtain ⟨xs0, hxs0⟩ := hA.solvable (h.vecs n hB)
  obtain ⟨r, hr, q1, q2, q3, -⟩ := key xs0 hxs0
  refine (Prog.exec_refines (krylovKit_implements hmv hmvh hps hpsh Real.sqrt abs ho hoS) (lisCg junk o)
    (Q := fun out s' => out.ret = .success ∧ (out.iter ≤ n ∨ out.iter = 1) ∧
      MeetsTol K o (h.vecs n hB) (h.vecs n hX) (s'.h hX) ∧
      ∀ xs, toMat n a *ᵥ xs = h.vecs n hB → energy (toMat n a) xs (s'.h hX) ≤ energy (toMat n a) xs (h.vecs n hX))
    hg ⟨r, hKe ▸ hr, ?_⟩).mono ?_
  · refine ⟨q1, q2, q3, fun xs hxs => ?_⟩
    obtain ⟨r', hr', -, -, -, q⟩ := key xs hxs
    rw [hr] at hr'
    cases hr'
    exact q
  · rintro r ⟨-, q1, q2, q3, q4⟩
    rw [hKe] at q3
    exact ⟨q1, q2, q3.csr, q4⟩

/-- the identity, for `-p none` -/
theorem Spd.one : Spd (1 : Matrix (Fin n) (Fin n) ℝ) := by
  refine ⟨transpose_one, fun x hx => ?_⟩
  rw [one_mulVec]
  exact lt_of_le_of_ne (Finset.sum_nonneg fun i _ => mul_self_nonneg _) fun h => hx (dotProduct_self_eq_zero.1 h.symm)

/-- a positive diagonal -/
theorem Spd.diagonal {d : Fin n → ℝ} (hd : ∀ i, 0 < d i) : Spd (diagonal d) := by
  refine ⟨diagonal_transpose _, fun x hx => ?_⟩
  have hne : ∃ i, x i ≠ 0 := by
    by_contra h
    push Not at h
    exact hx (funext h)
  obtain ⟨i, hi⟩ := hne
  unfold dotProduct
  refine Finset.sum_pos' (fun j _ => ?_) ⟨i, Finset.mem_univ _, ?_⟩
  · rw [mulVec_diagonal]
    nlinarith [mul_self_nonneg (x j), hd j]
  · rw [mulVec_diagonal]
    nlinarith [mul_self_pos.2 hi, hd i]

/-- **… without preconditioner.** -/
theorem cg_csr_none_spd {A : Csr ℝ} (hA : A.WF) (hnp : A.np = A.n) (hS : Spd (toMat A.n A.entry))
    {omp ompS : Option (OmpRun ℝ)} (ho : GoodRun A.n omp) (hoS : GoodRun A.n ompS)
    (o : Opts ℝ ℝ) (ht : 0 ≤ o.tol) (hw : o.conv = .nrm1B → o.tol ≤ o.tolW) (hmax : A.n ≤ o.maxiter) (junk : ℝ)
    {h : Vecs ℝ} (hg : h.Good A.n) {hist : Arr ℝ} (hsz : o.maxiter < hist.size)
    (hz : o.initZero → ∀ i, i < A.n → h.el hX i = 0) :
    Ok ((lisCg junk o).exec (krylovKit (matvecCsr A) (matvechCsr A) psolveNone psolveNone Real.sqrt abs omp ompS) ⟨h, hist⟩)
      fun r => r.1.ret = .success ∧ (r.1.iter ≤ A.n ∨ r.1.iter = 1) ∧
        CsrMeets A.n A.entry Real.sqrt abs o (h.el hB) (h.el hX) (r.2.h.el hX) :=
  (cg_array_spd hS (isMatvec_csr hA hnp) (isMatvech_csr hA hnp) (psolveNone_maps A.n) (psolveNone_maps A.n) Spd.one
    (fun x => (one_mulVec x).symm) ho hoS o ht hw hmax junk hg hsz hz).mono fun _ q => ⟨q.1, q.2.1, q.2.2.1⟩

/-- **… with the Jacobi preconditioner** (whose diagonal is positive, the matrix being positive definite) **.** -/
theorem cg_csr_jacobi_spd {A : Csr ℝ} (hA : A.WF) (hnp : A.np = A.n) (hS : Spd (toMat A.n A.entry))
    (hd : ∀ i, i < A.n → A.StoresDiag i → A.DiagOnce i) {pj : Arr ℝ} (hj : A.n ≤ pj.size)
    {omp ompS : Option (OmpRun ℝ)} (ho : GoodRun A.n omp) (hoS : GoodRun A.n ompS)
    (o : Opts ℝ ℝ) (ht : 0 ≤ o.tol) (hw : o.conv = .nrm1B → o.tol ≤ o.tolW) (hmax : A.n ≤ o.maxiter) (junk : ℝ)
    {h : Vecs ℝ} (hg : h.Good A.n) {hist : Arr ℝ} (hsz : o.maxiter < hist.size)
    (hz : o.initZero → ∀ i, i < A.n → h.el hX i = 0) :
    Ok (do
      let d ← createJacobi (getDiagonalCsr A) A.n pj
      (lisCg junk o).exec (krylovKit (matvecCsr A) (matvechCsr A) (psolveJacobi id A.n d) (psolveJacobi star A.n d)
        Real.sqrt abs omp ompS) ⟨h, hist⟩)
      fun r => r.1.ret = .success ∧ (r.1.iter ≤ A.n ∨ r.1.iter = 1) ∧
        CsrMeets A.n A.entry Real.sqrt abs o (h.el hB) (h.el hX) (r.2.h.el hX) := by
  rw [Ok_bind]
  refine (createJacobi_spec hA hd hj).mono ?_
  rintro d ⟨s, g⟩
  refine (cg_array_spd hS (isMatvec_csr hA hnp) (isMatvech_csr hA hnp) (psolveJacobi_maps id (by omega))
    (psolveJacobi_maps star (by omega)) (M := diagonal fun i : Fin A.n => d.get i) (Spd.diagonal fun i => ?_) (fun x => ?_)
    ho hoS o ht hw hmax junk hg hsz hz).mono fun _ q => ⟨q.1, q.2.1, q.2.2.1⟩
  · rw [g i i.2]
    exact one_div_pos.2 (hS.diag i)
  · funext i
    rw [mulVec_diagonal, id, mul_comm]

/-- what SSOR computes for a symmetric matrix with positive diagonal is a product with a symmetric positive definite
matrix -/
theorem ssor_spd {D : ℕ → ℝ} (hD : ∀ i, i < n → 0 < D i) {wd : ℕ → ℝ} (hwd : ∀ i, i < n → D i * wd i = 1) {l u : ℕ → ℕ → ℝ}
    (hl : ∀ i j, i < n → i ≤ j → l i j = 0) (hu : ∀ i j, i < n → j ≤ i → u i j = 0)
    (hlu : ∀ i j, i < n → j < n → u i j = l j i) {m : (Fin n → ℝ) → Fin n → ℝ}
    (hm : ∀ r, ∃ z, TriRel D l z r ∧ TriRel D u (m r) fun i => D i * z i) :
    ∃ M : Matrix (Fin n) (Fin n) ℝ, Spd M ∧ ∀ x, m x = M *ᵥ x := by
  choose z hz1 hz2 using hm
  have hrel : ∀ (a : ℕ → ℕ → ℝ) (y y' r r' : Fin n → ℝ) (c : ℝ), TriRel D a y r → TriRel D a y' r' →
      TriRel D a (y + c • y') (r + c • r') := by
    intro a y y' r r' c h h' i
    have e : matMul a (y + c • y') i = matMul a y i + c * matMul a y' i := by
      simp only [matMul, Pi.add_apply, Pi.smul_apply, smul_eq_mul, Finset.mul_sum, ← Finset.sum_add_distrib]
      exact Finset.sum_congr rfl fun j _ => by ring
    rw [e]
    simp only [Pi.add_apply, Pi.smul_apply, smul_eq_mul]
    linear_combination h i + c * h' i
  have hzl : ∀ (x y : Fin n → ℝ) (c : ℝ), z (x + c • y) = z x + c • z y := fun x y c =>
    triRel_unique_lower hwd hl (hz1 _) (hrel _ _ _ _ _ c (hz1 x) (hz1 y))
  have hml : ∀ (x y : Fin n → ℝ) (c : ℝ), m (x + c • y) = m x + c • m y := by
    intro x y c
    refine triRel_unique_upper hwd hu (hz2 _) ?_
    rw [hzl]
    have := hrel _ _ _ _ _ c (hz2 x) (hz2 y)
    convert this using 1
    funext i
    simp only [Pi.add_apply, Pi.smul_apply, smul_eq_mul]
    ring
  -- the quadratic form
  have hq : ∀ x y : Fin n → ℝ, x ⬝ᵥ m y = ∑ i : Fin n, D i * (z x i * z y i) := by
    intro x y
    have e1 : x ⬝ᵥ m y = ∑ i : Fin n, (D i * z x i * m y i) + ∑ i : Fin n, ∑ j : Fin n, l i j * z x j * m y i := by
      unfold dotProduct
      rw [← Finset.sum_add_distrib]
      refine Finset.sum_congr rfl fun i _ => ?_
      rw [← hz1 x i, add_mul, matMul, Finset.sum_mul]
    have e2 : ∑ i : Fin n, D i * (z x i * z y i) =
        ∑ i : Fin n, (D i * z x i * m y i) + ∑ i : Fin n, ∑ j : Fin n, u i j * m y j * z x i := by
      rw [← Finset.sum_add_distrib]
      refine Finset.sum_congr rfl fun i _ => ?_
      have := hz2 y i
      simp only [matMul] at this
      rw [← Finset.sum_mul]
      linear_combination -(z x i) * this
    rw [e1, e2, Finset.sum_comm]
    congr 1
    refine Finset.sum_congr rfl fun i _ => Finset.sum_congr rfl fun j _ => ?_
    rw [hlu i j i.2 j.2]
    ring
  let lm : (Fin n → ℝ) →ₗ[ℝ] (Fin n → ℝ) :=
    { toFun := m
      map_add' := fun x y => by have := hml x y 1; simpa using this
      map_smul' := fun c x => by
        have h0 : m 0 = 0 := by have := hml 0 0 (-1); simpa using this
        have := hml 0 x c
        simpa [h0] using this }
  refine ⟨LinearMap.toMatrix' lm, ⟨?_, ?_⟩, fun x => ?_⟩
  · ext i j
    have e : ∀ i j, LinearMap.toMatrix' lm i j = Pi.single i 1 ⬝ᵥ m (Pi.single j 1) := by
      intro i j
      rw [LinearMap.toMatrix'_apply, single_one_dotProduct]
      congr 1
    rw [transpose_apply, e, e, hq, hq]
    exact Finset.sum_congr rfl fun k _ => by ring
  · intro x hx
    rw [show LinearMap.toMatrix' lm *ᵥ x = m x from LinearMap.toMatrix'_mulVec lm x, hq]
    have hne : ∃ i, z x i ≠ 0 := by
      by_contra h
      push Not at h
      apply hx
      funext i
      rw [← hz1 x i]
      simp [matMul, h]
    obtain ⟨i, hi⟩ := hne
    refine Finset.sum_pos' (fun j _ => mul_nonneg (hD j j.2).le (mul_self_nonneg _)) ⟨i, Finset.mem_univ _, ?_⟩
    exact mul_pos (hD i i.2) (mul_self_pos.2 hi)
  · exact (LinearMap.toMatrix'_mulVec lm x).symm

/-- **… with the SSOR preconditioner** (`w > 0`; the matrix is split) **.** -/
theorem cg_csr_ssor_spd {A : SplitCsr ℝ} (hA : A.WF) (hs : A.Strict) (hnp : A.np = A.n)
    (hS : Spd (toMat A.n A.entry)) {w : ℝ} (hw0 : 0 < w) {pj : Arr ℝ} (hj : A.n ≤ pj.size)
    {omp ompS : Option (OmpRun ℝ)} (ho : GoodRun A.n omp) (hoS : GoodRun A.n ompS)
    (o : Opts ℝ ℝ) (ht : 0 ≤ o.tol) (hw : o.conv = .nrm1B → o.tol ≤ o.tolW) (hmax : A.n ≤ o.maxiter) (junk : ℝ)
    {h : Vecs ℝ} (hg : h.Good A.n) {hist : Arr ℝ} (hsz : o.maxiter < hist.size)
    (hz : o.initZero → ∀ i, i < A.n → h.el hX i = 0) :
    Ok (do
      let wd ← makeWd w A.n A.D pj
      (lisCg junk o).exec (krylovKit (matvecSplitCsr A) (matvechSplitCsr A) (solveSsorCsr A wd) (solvehSsorCsr star A wd)
        Real.sqrt abs omp ompS) ⟨h, hist⟩)
      fun r => r.1.ret = .success ∧ (r.1.iter ≤ A.n ∨ r.1.iter = 1) ∧
        CsrMeets A.n A.entry Real.sqrt abs o (h.el hB) (h.el hX) (r.2.h.el hX) := by
  rw [Ok_bind]
  have := hA.dsz
  have hdiag : ∀ i, i < A.n → 0 < A.D.get i := by
    intro i hi
    have := hS.diag ⟨i, hi⟩
    simp only [toMat, SplitCsr.entry] at this
    rw [SplitCsr.low_zero hs i i hi le_rfl, SplitCsr.up_zero hs i i hi le_rfl] at this
    simpa using this
  refine (makeWd_spec w (by omega) hj).mono ?_
  rintro wd ⟨s, g⟩
  have hwd : ∀ i, i < A.n → w * A.D.get i * wd.get i = 1 := fun i hi => by
    rw [g i hi, mul_one_div_cancel (mul_pos hw0 (hdiag i hi)).ne']
  obtain ⟨m, hm, hmm⟩ := solveSsor_maps hA hs (wd := wd) (by omega) hwd
  obtain ⟨m', hm'⟩ := solvehSsor_maps hA hs hnp (wd := wd) (by omega) hwd
  obtain ⟨M, hM, hMe⟩ := ssor_spd (D := fun i => w * A.D.get i) (fun i hi => mul_pos hw0 (hdiag i hi)) hwd
    (fun i j hi hij => SplitCsr.low_zero hs i j hi hij) (fun i j hi hij => SplitCsr.up_zero hs i j hi hij)
    (fun i j hi hj => by
      rcases Nat.lt_or_ge i j with hij | hij
      · have e := congrFun (congrFun hS.symm ⟨i, hi⟩) ⟨j, hj⟩
        simp only [transpose_apply, toMat, SplitCsr.entry] at e
        rw [SplitCsr.up_zero hs j i hj hij.le, SplitCsr.low_zero hs i j hi hij.le, if_neg (by omega),
          if_neg (by omega)] at e
        linarith
      · rw [SplitCsr.up_zero hs i j hi hij, SplitCsr.low_zero hs j i hj hij]) hm
  exact (cg_array_spd hS (isMatvec_split hA hnp) (isMatvech_split hA hnp) hmm hm' hM hMe ho hoS o ht hw hmax junk hg hsz
    hz).mono fun _ q => ⟨q.1, q.2.1, q.2.2.1⟩

end Lis
