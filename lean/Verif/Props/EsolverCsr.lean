import Verif.Props.EsolverExact
import Verif.Props.ArraySolver
import Verif.Props.CsrOps
import Mathlib.Data.Real.Star

/-!
# C38 on arrays: the eigensolvers of the standard problem run on a CSR matrix
-/

namespace Lis
open Matrix
variable {R S : Type} {n : ℕ}

/-- a well-formed `n × n` CSR matrix that stores every diagonal element, as `lis_matrix_shift_diagonal` needs -/
structure Csr.Shiftable [AddCommMonoid R] (n : ℕ) (A : Csr R) : Prop where
  wf : A.WF
  rows : A.n = n
  cols : A.np = n
  diag : ∀ i, i < n → A.StoresDiag i

theorem shiftDiagonalCsr_shiftable [AddCommGroup R] {A : Csr R} (h : A.Shiftable n) (sigma : R) :
    Ok (shiftDiagonalCsr A sigma) fun B => B.Shiftable n ∧ ∀ i j, i < n →
      B.entry i j = A.entry i j - if i = j then sigma else 0 := by
  obtain ⟨B, hB, b1, b2, b3, b4⟩ := shiftDiagonalCsr_full h.wf sigma fun i hi => h.diag i (by rwa [h.rows] at hi)
  refine ⟨B, hB, ⟨b1, b2.trans h.rows, b3.trans h.cols, ?_⟩, fun i j hi => b4 i j (by rwa [h.rows])⟩
  unfold shiftDiagonalCsr at hB
  rw [Option.bind_eq_bind, Option.bind_eq_some_iff] at hB
  obtain ⟨v, -, hv⟩ := hB
  cases hv
  exact h.diag

/-- `lis_matrix_shift_diagonal` on shiftable matrices -/
noncomputable def csrShift [AddCommGroup R] (sigma : R) (A : {A : Csr R // A.Shiftable n}) : {A : Csr R // A.Shiftable n} :=
  ⟨(shiftDiagonalCsr_shiftable A.2 sigma).choose, (shiftDiagonalCsr_shiftable A.2 sigma).choose_spec.2.1⟩

/-- the calls on arrays; `lin` is the linear solver -/
def csrAEKit [CommRing R] [StarRing R] (sqrt fabs : R → S) (omp : Option (OmpRun R))
    (ompS : Option (OmpRun S)) (lin : Csr R → ℕ → ℕ → Vecs R → Option (Err × Vecs R)) : AEKit R S (Csr R) where
  kit := fun _ A => arrayKit (matvecCsr A) (matvechCsr A) psolveNone psolveNone psolveNone
    (fun x h => (vectorSetAll 0 x h).map Prod.snd) sqrt fabs omp ompS
  shift := fun a A => shiftDiagonalCsr A a
  lin := fun _ A x y h => lin A x y h

/-- what they compute -/
noncomputable def csrEKit [CommRing R] [StarRing R] [AddCommMonoid S] (sqrt fabs : R → S)
    (mlin : {A : Csr R // A.Shiftable n} → (Fin n → R) → (Fin n → R) → Err × (Fin n → R)) :
    EKit R S {A : Csr R // A.Shiftable n} n where
  base := mathKit (fun _ _ => 0) sqrt fabs id id id 0
  mv := fun _ A => matMul A.1.entry
  mvh := fun _ A => matMulH A.1.entry
  shift := csrShift
  lin := fun _ A => mlin A

/-- the linear solver returns `mlin` of matrix, right-hand side and previous content of `y`, stores the vector in `y` and
changes no other vector -/
def LinSolves [CommRing R] (lin : Csr R → ℕ → ℕ → Vecs R → Option (Err × Vecs R))
    (mlin : {A : Csr R // A.Shiftable n} → (Fin n → R) → (Fin n → R) → Err × (Fin n → R)) : Prop :=
  ∀ (A : {A : Csr R // A.Shiftable n}) x y (h : Vecs R), x ≠ y → h.Good n → Ok (lin A.1 x y h) fun r =>
    r.2.Good n ∧ r.1 = (mlin A (h.vecs n x) (h.vecs n y)).1 ∧
    r.2.vecs n = Function.update (h.vecs n) y (mlin A (h.vecs n x) (h.vecs n y)).2

theorem csrAEKit_implements [CommRing R] [StarRing R] [AddCommMonoid S] (sqrt fabs : R → S)
    {omp : Option (OmpRun R)} {ompS : Option (OmpRun S)} (ho : GoodRun n omp) (hoS : GoodRun n ompS)
    {lin : Csr R → ℕ → ℕ → Vecs R → Option (Err × Vecs R)}
    {mlin : {A : Csr R // A.Shiftable n} → (Fin n → R) → (Fin n → R) → Err × (Fin n → R)} (hl : LinSolves lin mlin) :
    (csrAEKit sqrt fabs omp ompS lin).Implements (csrEKit sqrt fabs mlin) fun A m => A = m.1 := by
  refine ⟨?_, ?_, ?_⟩
  · rintro b A m rfl
    have h1 := isMatvec_csr m.2.wf (m.2.cols.trans m.2.rows.symm)
    have h2 := isMatvech_csr m.2.wf (m.2.cols.trans m.2.rows.symm)
    rw [m.2.rows] at h1 h2
    exact arrayKit_implements h1 h2 (psolveNone_maps n) (psolveNone_maps n) (psolveNone_maps n)
      (fun x h hg => Ok_of_assigned hg (vectorSetAll_spec 0 h x (hg.wf x))) sqrt fabs ho hoS
  · rintro a A m rfl
    exact ⟨_, (shiftDiagonalCsr_shiftable m.2 a).choose_spec.1, rfl⟩
  · rintro b A m x y h rfl hxy hg
    exact hl m x y h hxy hg

/-- running on arrays does what running mathematically does -/
theorem csr_exec [CommRing R] [StarRing R] [AddCommMonoid S] (sqrt fabs : R → S)
    {omp : Option (OmpRun R)} {ompS : Option (OmpRun S)} (ho : GoodRun n omp) (hoS : GoodRun n ompS)
    {lin : Csr R → ℕ → ℕ → Vecs R → Option (Err × Vecs R)}
    {mlin : {A : Csr R // A.Shiftable n} → (Fin n → R) → (Fin n → R) → Err × (Fin n → R)} (hl : LinSolves lin mlin)
    {α : Type} (p : EProg R S α) {A : Csr R} (hA : A.Shiftable n) {h : Vecs R} (hg : h.Good n) {hist : Arr S}
    (hok : Ok (p.run (csrEKit sqrt fabs mlin) ⟨⟨A, hA⟩, h.vecs n, hist⟩) fun _ => True) :
    Ok (p.exec (csrAEKit sqrt fabs omp ompS lin) ⟨A, h, hist⟩) fun r =>
      r.2.h.Good n ∧ ∃ m2, r.2.m = m2.1 ∧
        p.run (csrEKit sqrt fabs mlin) ⟨⟨A, hA⟩, h.vecs n, hist⟩ = some (r.1, ⟨m2, r.2.h.vecs n, r.2.hist⟩) := by
  refine EProg.exec_refines (csrAEKit_implements sqrt fabs ho hoS hl) p
    (Q := fun a s' => p.run (csrEKit sqrt fabs mlin) ⟨⟨A, hA⟩, h.vecs n, hist⟩ = some (a, s')) (m := ⟨A, hA⟩) rfl hg ?_
  obtain ⟨r, hr, -⟩ := hok
  exact ⟨r, hr, hr⟩

/-- the matrix of a CSR matrix -/
def Csr.toMat (n : ℕ) (A : Csr ℝ) : Matrix (Fin n) (Fin n) ℝ := Matrix.of fun i j => A.entry i j

theorem csrEKit_exact (fabs : ℝ → ℝ)
    (mlin : {A : Csr ℝ // A.Shiftable n} → (Fin n → ℝ) → (Fin n → ℝ) → Err × (Fin n → ℝ)) :
    (csrEKit Real.sqrt fabs mlin).Exact (fun _ A => A.1.toMat n) fun _ => 1 := by
  refine ⟨fun x y => ?_, fun x => ?_, fun A x => ?_, fun a A => ?_, fun _ _ => rfl⟩
  · simp [csrEKit, mathKit, dotProduct]
  · simp [csrEKit, mathKit, dotProduct, nrm]
  · funext i
    simp [csrEKit, matMul, mulVec, dotProduct, Csr.toMat]
  · ext i j
    have := (shiftDiagonalCsr_shiftable A.2 a).choose_spec.2.2 i j i.2
    simp only [csrEKit, csrShift, Csr.toMat, Matrix.of_apply, Matrix.sub_apply, Matrix.smul_apply, Matrix.one_apply,
      smul_eq_mul, mul_ite, mul_one, mul_zero]
    rw [this]
    congr 1
    simp [Fin.ext_iff]

/-- **`lis_epi` on a CSR matrix.** The run stays inside all arrays, keeps the contract, and (real arithmetic) restores the
matrix and returns a pair with the residual stated in `lisEpi_exact`. -/
theorem lisEpi_csr {A : Csr ℝ} (hA : A.Shiftable n) (fabs : ℝ → ℝ) {omp ompS : Option (OmpRun ℝ)} (ho : GoodRun n omp)
    (hoS : GoodRun n ompS) {lin : Csr ℝ → ℕ → ℕ → Vecs ℝ → Option (Err × Vecs ℝ)}
    {mlin : {A : Csr ℝ // A.Shiftable n} → (Fin n → ℝ) → (Fin n → ℝ) → Err × (Fin n → ℝ)} (hl : LinSolves lin mlin)
    (jt jr : ℝ) (o : EOpts ℝ ℝ) {h : Vecs ℝ} (hg : h.Good n) {hist : Arr ℝ} (hsz : o.maxiter < hist.size) :
    Ok ((lisEpi jt jr o).exec (csrAEKit Real.sqrt fabs omp ompS lin) ⟨A, h, hist⟩) fun r =>
      r.2.h.Good n ∧ r.2.m.Shiftable n ∧ (r.1.ret = .success ∨ r.1.ret = .maxiter) ∧
      (r.1.ret = .success → ∃ k resid l, r.1.res = some (k, resid, l) ∧ 1 ≤ k ∧ k ≤ o.maxiter ∧ resid ≤ o.tol ∧
        (∀ i j, i < n → j < n → r.2.m.entry i j = A.entry i j) ∧
        (l ≠ o.sigma → ∃ u, nrm u = 1 ∧ l = u ⬝ᵥ (A.toMat n *ᵥ u) ∧
          nrm (A.toMat n *ᵥ u - l • u) = resid * |l - o.sigma| ∧ nrm (r.2.h.vecs n eV) = 1 ∧
          nrm (A.toMat n *ᵥ u - o.sigma • u) • r.2.h.vecs n eV = A.toMat n *ᵥ u - o.sigma • u)) := by
  set K := csrEKit (n := n) Real.sqrt fabs mlin
  have c1 := lisEpi_contract K jt jr o ⟨⟨A, hA⟩, h.vecs n, hist⟩ hsz
  have c2 := lisEpi_exact (csrEKit_exact fabs mlin) jt jr o ⟨⟨A, hA⟩, h.vecs n, hist⟩ hsz
  refine (csr_exec Real.sqrt fabs ho hoS hl (lisEpi jt jr o) hA hg (c1.mono fun _ _ => trivial)).mono ?_
  rintro ⟨out, s'⟩ ⟨g, m2, hm, hrun⟩
  obtain ⟨_, e1, c1⟩ := c1
  obtain ⟨_, e2, c2⟩ := c2
  rw [hrun] at e1 e2
  cases e1; cases e2
  simp only at hm c1 c2 ⊢
  refine ⟨g, by rw [hm]; exact m2.2, ?_, fun hs => ?_⟩
  · obtain ⟨x, k, -, -, -, -, -, h | h | h⟩ := c1.path
    · exact .inl (by rw [h.2.2.1])
    · exact .inr (by rw [h.2.2.1])
    · exact h.2.2.2.2.elim
  · obtain ⟨x, k, hk, -, -, -, e, -, -⟩ := c1.success hs
    obtain ⟨k', resid, l, d1, d2, d3, d4⟩ := c2 hs
    rw [e] at d1
    cases d1
    refine ⟨_, _, _, e, by omega, by omega, d2, fun i j hi hj => ?_, fun hl => ?_⟩
    · have := congrFun (congrFun d3 ⟨i, hi⟩) ⟨j, hj⟩
      rw [hm]; exact this
    · obtain ⟨u, u1, u2, u3, u4, u5, -⟩ := d4 hl
      exact ⟨u, u1, u2, u3, u4, u5⟩

/-- **`lis_eii` on a CSR matrix**, real arithmetic, with a linear solver that leaves the residual `≤ delta`. -/
theorem lisEii_csr {A : Csr ℝ} (hA : A.Shiftable n) (fabs : ℝ → ℝ) {omp ompS : Option (OmpRun ℝ)} (ho : GoodRun n omp)
    (hoS : GoodRun n ompS) {lin : Csr ℝ → ℕ → ℕ → Vecs ℝ → Option (Err × Vecs ℝ)}
    {mlin : {A : Csr ℝ // A.Shiftable n} → (Fin n → ℝ) → (Fin n → ℝ) → Err × (Fin n → ℝ)} (hl : LinSolves lin mlin)
    (delta : ℝ) (hd : ∀ m v y0 y, mlin m v y0 = (.success, y) → nrm v = 1 → nrm (v - m.1.toMat n *ᵥ y) ≤ delta)
    (jt jr : ℝ) (o : EOpts ℝ ℝ) {h : Vecs ℝ} (hg : h.Good n) {hist : Arr ℝ} (hsz : o.maxiter < hist.size) :
    Ok ((lisEii jt jr o).exec (csrAEKit Real.sqrt fabs omp ompS lin) ⟨A, h, hist⟩) fun r =>
      r.2.h.Good n ∧ r.2.m.Shiftable n ∧
      (r.1.ret = .success → ∃ k resid l, r.1.res = some (k, resid, l) ∧ resid ≤ o.tol ∧
        (∀ i j, i < n → j < n → r.2.m.entry i j = A.entry i j) ∧
        (l ≠ o.sigma → nrm (r.2.h.vecs n eV) = 1 ∧
          nrm (A.toMat n *ᵥ r.2.h.vecs n eV - l • r.2.h.vecs n eV) ≤ (resid + delta) * |l - o.sigma|)) := by
  have c2 := lisEii_exact (csrEKit_exact fabs mlin) delta (fun m v y0 y => hd m v y0 y) jt jr o
    ⟨⟨A, hA⟩, h.vecs n, hist⟩ hsz
  refine (csr_exec Real.sqrt fabs ho hoS hl (lisEii jt jr o) hA hg (c2.mono fun _ _ => trivial)).mono ?_
  rintro ⟨out, s'⟩ ⟨g, m2, hm, hrun⟩
  obtain ⟨_, e2, c2⟩ := c2
  rw [hrun] at e2
  cases e2
  simp only at hm c2 ⊢
  refine ⟨g, by rw [hm]; exact m2.2, fun hs => ?_⟩
  obtain ⟨k', resid, l, d1, d2, d3, d4⟩ := c2 hs
  refine ⟨_, _, _, d1, d2, fun i j hi hj => ?_, d4⟩
  have := congrFun (congrFun d3 ⟨i, hi⟩) ⟨j, hj⟩
  rw [hm]; exact this

/-- **`lis_erqi` on a CSR matrix**, real arithmetic, exact linear solver. -/
theorem lisErqi_csr {A : Csr ℝ} (hA : A.Shiftable n) (fabs : ℝ → ℝ) {omp ompS : Option (OmpRun ℝ)} (ho : GoodRun n omp)
    (hoS : GoodRun n ompS) {lin : Csr ℝ → ℕ → ℕ → Vecs ℝ → Option (Err × Vecs ℝ)}
    {mlin : {A : Csr ℝ // A.Shiftable n} → (Fin n → ℝ) → (Fin n → ℝ) → Err × (Fin n → ℝ)} (hl : LinSolves lin mlin)
    (hd : ∀ m v y0 y, mlin m v y0 = (.success, y) → m.1.toMat n *ᵥ y = v)
    (jr : ℝ) (o : EOpts ℝ ℝ) {h : Vecs ℝ} (hg : h.Good n) (hv0 : eInit o (h.vecs n eV) ≠ 0) {hist : Arr ℝ}
    (hsz : o.maxiter < hist.size) :
    Ok ((lisErqi jr o).exec (csrAEKit Real.sqrt fabs omp ompS lin) ⟨A, h, hist⟩) fun r =>
      r.2.h.Good n ∧ r.2.m.Shiftable n ∧
      (r.1.ret = .success → ∃ k resid l, r.1.res = some (k, resid, l) ∧ resid ≤ o.tol ∧
        (∀ i j, i < n → j < n → r.2.m.entry i j = A.entry i j) ∧
        nrm (r.2.h.vecs n eV) = 1 ∧ l = r.2.h.vecs n eV ⬝ᵥ (A.toMat n *ᵥ r.2.h.vecs n eV) ∧
        ∃ rho v y, nrm v = 1 ∧ rho = v ⬝ᵥ (A.toMat n *ᵥ v) ∧ A.toMat n *ᵥ y - rho • y = v ∧
          nrm y • r.2.h.vecs n eV = y ∧
          (v ⬝ᵥ y ≠ 0 → nrm (A.toMat n *ᵥ r.2.h.vecs n eV - l • r.2.h.vecs n eV) = resid * |l - rho|)) := by
  have c2 := lisErqi_exact (csrEKit_exact fabs mlin) (fun m v y0 y => hd m v y0 y) jr o
    ⟨⟨A, hA⟩, h.vecs n, hist⟩ hv0 hsz
  refine (csr_exec Real.sqrt fabs ho hoS hl (lisErqi jr o) hA hg (c2.mono fun _ _ => trivial)).mono ?_
  rintro ⟨out, s'⟩ ⟨g, m2, hm, hrun⟩
  obtain ⟨_, e2, c2⟩ := c2
  rw [hrun] at e2
  cases e2
  simp only at hm c2 ⊢
  refine ⟨g, by rw [hm]; exact m2.2, fun hs => ?_⟩
  obtain ⟨k', resid, l, d1, d2, d3, d4⟩ := c2 hs
  refine ⟨_, _, _, d1, d2, fun i j hi hj => ?_, d4⟩
  have := congrFun (congrFun d3 ⟨i, hi⟩) ⟨j, hj⟩
  rw [hm]; exact this

end Lis
