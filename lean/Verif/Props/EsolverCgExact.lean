import Verif.Props.EsolverCg
import Verif.Props.EsolverExact
import Verif.Lemmas.EsolverCgExact

/-!
# C57 in real arithmetic: what the CG and CR eigensolvers return

`A = mat false s.m`, `B = mat true s.m` are the matrices the caller gave, `sigma = o.sigma` the shift. In real arithmetic
`x/0 = 0`; the cases in which the program would divide by zero are excluded explicitly where they matter (`l ≠ sigma`).
-/

namespace Lis
open Matrix
variable {M : Type} {n : ℕ} {K : EKit ℝ ℝ M n} {mat : Bool → M → Matrix (Fin n) (Fin n) ℝ}
  {C : M → Matrix (Fin n) (Fin n) ℝ}

/-- `<` on the reals -/
noncomputable def ltR (a b : ℝ) : Bool := @decide (a < b) (Classical.dec _)

theorem ltR_iff {a b : ℝ} : ltR a b = true ↔ a < b := by simp [ltR]

theorem Stops.congr {S R : Type} {lt : S → S → Bool} {o : EOpts R S} {f g : ℕ → S} {a a' : Arr S} {k : ℕ}
    (h : Stops lt o f a a' k) (hfg : ∀ j, 1 ≤ j → f j = g j) : Stops lt o g a a' k where
  le := h.le
  before := fun j h1 h2 => by rw [← hfg j h1]; exact h.before j h1 h2
  stop := fun hk => ⟨(h.stop hk).1, by rw [← hfg k (h.stop hk).1]; exact (h.stop hk).2⟩
  size := h.size
  rec_ := fun hm j h1 h2 => by rw [← hfg j h1]; exact h.rec_ hm j h1 h2
  frame := h.frame

theorem axpyV_eq (a : ℝ) (x y : Fin n → ℝ) : axpyV a x y = y + a • x := rfl
theorem xpayV_eq (a : ℝ) (x y : Fin n → ℝ) : xpayV x a y = x + a • y := rfl
theorem axpyzV_eq (a : ℝ) (x y : Fin n → ℝ) : axpyzV a x y = a • x + y := rfl

/-- what holds at every point of (generalized) CR for the matrices `A`, `B` (`B = 1` for CR) -/
structure CrPtInv (A B : Matrix (Fin n) (Fin n) ℝ) (q : CPt ℝ ℝ n) : Prop where
  lam : q.lam = (A *ᵥ q.x) ⬝ᵥ (B *ᵥ q.x) / ((B *ᵥ q.x) ⬝ᵥ (B *ᵥ q.x))
  r : q.r = q.lam • (B *ᵥ q.x) - A *ᵥ q.x
  Ap : q.Ap = A *ᵥ q.p

/-- one step: minimization along `p`, then over the quotient -/
theorem cr_decrease {A B : Matrix (Fin n) (Fin n) ℝ} {x p : Fin n → ℝ} (l : ℝ) {r : Fin n → ℝ}
    (hr : r = l • (B *ᵥ x) - A *ᵥ x) {z : Fin n → ℝ} (hz : z = A *ᵥ p - l • (B *ᵥ p)) :
    let x' := x + (r ⬝ᵥ z / z ⬝ᵥ z) • p
    let l' := (A *ᵥ x') ⬝ᵥ (B *ᵥ x') / ((B *ᵥ x') ⬝ᵥ (B *ᵥ x'))
    nrm (A *ᵥ x' - l' • (B *ᵥ x')) ≤ nrm (A *ᵥ x - l • (B *ᵥ x)) := by
  intro x' l'
  have h1 : nrm (A *ᵥ x' - l' • (B *ᵥ x')) ≤ nrm (A *ᵥ x' - l • (B *ᵥ x')) := nrm_best _ _ l
  have h2 : A *ᵥ x' - l • (B *ᵥ x') = -(r - (r ⬝ᵥ z / z ⬝ᵥ z) • z) := by
    simp only [x', Matrix.mulVec_add, Matrix.mulVec_smul]
    rw [hr, hz]
    module
  have h3 : nrm (A *ᵥ x - l • (B *ᵥ x)) = nrm r := by
    rw [← nrm_neg r, hr]; congr 1; abel
  rw [h2, nrm_neg] at h1
  rw [h3]
  exact h1.trans (nrm_best_zero r z)

theorem crStep_exact (hK : K.Exact mat C) (m : M) {q : CPt ℝ ℝ n} (hq : CrPtInv (mat false m) 1 q) :
    CrPtInv (mat false m) 1 (crStep K m q) ∧
    (crStep K m q).resid = nrm (mat false m *ᵥ (crStep K m q).x - (crStep K m q).lam • (crStep K m q).x) / |(crStep K m q).lam| ∧
    nrm (mat false m *ᵥ (crStep K m q).x - (crStep K m q).lam • (crStep K m q).x) ≤
      nrm (mat false m *ᵥ q.x - q.lam • q.x) := by
  obtain ⟨h1, h2, h3⟩ := hq
  simp only [Matrix.one_mulVec] at h1 h2
  have hl : ∀ x : Fin n → ℝ, K.base.dot x (K.mv false m x) / EigOps.ofS (K.base.nrm2 x * K.base.nrm2 x) =
      (mat false m *ᵥ x) ⬝ᵥ x / x ⬝ᵥ x := by
    intro x
    rw [hK.dot, hK.mv, hK.nrm2, nrm_sq, dotProduct_comm]; rfl
  refine ⟨⟨?_, ?_, ?_⟩, ?_, ?_⟩
  · simp only [crStep, hl, Matrix.one_mulVec]
  · simp only [crStep, smulV_eq, axpyzV_eq, hK.mv, Matrix.one_mulVec]
    module
  · simp only [crStep, xpayV_eq, hK.mv, h3, Matrix.mulVec_add, Matrix.mulVec_smul]
  · simp only [crStep, smulV_eq, axpyzV_eq, hK.mv, hK.nrm2]
    rw [nrm_smul]
    simp only [abs_neg, abs_one, one_mul]
    congr 2
    rw [neg_smul]; abel
  · have key := cr_decrease (A := mat false m) (B := 1) (x := q.x) (p := q.p) q.lam (r := q.r)
      (by simpa using h2) (z := q.Ap - q.lam • q.p) (by rw [h3]; simp)
    simp only [Matrix.one_mulVec] at key
    have ex : (crStep K m q).x =
        q.x + (q.r ⬝ᵥ (q.Ap - q.lam • q.p) / (q.Ap - q.lam • q.p) ⬝ᵥ (q.Ap - q.lam • q.p)) • q.p := by
      simp only [crStep, axpyV_eq, hK.dot]
      congr 3
      · rw [dotProduct_sub, dotProduct_smul, smul_eq_mul]
      · simp only [dotProduct_sub, sub_dotProduct, dotProduct_smul, smul_dotProduct, smul_eq_mul, dotProduct_comm q.p q.Ap]
        ring
    have el : (crStep K m q).lam =
        (mat false m *ᵥ (crStep K m q).x) ⬝ᵥ (crStep K m q).x / (crStep K m q).x ⬝ᵥ (crStep K m q).x := by
      simp only [crStep, hl]
    rw [el, ex]
    exact key

theorem crStart_exact (hK : K.Exact mat C) (m : M) (u : Fin n → ℝ) (jr : ℝ) :
    CrPtInv (mat false m) 1 (crStart K m u jr) := by
  refine ⟨?_, ?_, ?_⟩
  · simp only [crStart, hK.dot, hK.mv, hK.unit, Matrix.one_mulVec]
    by_cases hu : u = 0
    · subst hu; simp
    · have : (1 / nrm u) • u ⬝ᵥ (1 / nrm u) • u = 1 := by rw [← nrm_sq, nrm_unit hu]; simp
      rw [this, div_one, dotProduct_comm]
  · simp only [crStart, smulV_eq, axpyzV_eq, hK.mv, Matrix.one_mulVec]
    module
  · simp only [crStart, hK.mv]

theorem gcrStep_exact (hK : K.Exact mat C) (hB : ∀ m x, K.mv true m x = mat true m *ᵥ x) (m : M) {q : CPt ℝ ℝ n}
    (hq : CrPtInv (mat false m) (mat true m) q ∧ q.Bp = mat true m *ᵥ q.p) :
    (CrPtInv (mat false m) (mat true m) (gcrStep K m q) ∧ (gcrStep K m q).Bp = mat true m *ᵥ (gcrStep K m q).p) ∧
    (gcrStep K m q).resid = nrm (mat false m *ᵥ (gcrStep K m q).x -
      (gcrStep K m q).lam • (mat true m *ᵥ (gcrStep K m q).x)) / |(gcrStep K m q).lam| ∧
    nrm (mat false m *ᵥ (gcrStep K m q).x - (gcrStep K m q).lam • (mat true m *ᵥ (gcrStep K m q).x)) ≤
      nrm (mat false m *ᵥ q.x - q.lam • (mat true m *ᵥ q.x)) := by
  obtain ⟨⟨h1, h2, h3⟩, h4⟩ := hq
  refine ⟨⟨⟨?_, ?_, ?_⟩, ?_⟩, ?_, ?_⟩
  · simp only [gcrStep, hK.mv, hB, hK.dot]
  · simp only [gcrStep, smulV_eq, axpyzV_eq, hK.mv, hB]
    module
  · simp only [gcrStep, xpayV_eq, hK.mv, h3, Matrix.mulVec_add, Matrix.mulVec_smul]
  · simp only [gcrStep, xpayV_eq, hB, h4, Matrix.mulVec_add, Matrix.mulVec_smul]
  · simp only [gcrStep, smulV_eq, axpyzV_eq, hK.mv, hB, hK.nrm2]
    rw [nrm_smul]
    simp only [abs_neg, abs_one, one_mul]
    congr 2
    rw [neg_smul]; abel
  · have key := cr_decrease (A := mat false m) (B := mat true m) (x := q.x) (p := q.p) q.lam (r := q.r)
      h2 (z := q.Ap - q.lam • q.Bp) (by rw [h3, h4])
    have ex : (gcrStep K m q).x =
        q.x + (q.r ⬝ᵥ (q.Ap - q.lam • q.Bp) / (q.Ap - q.lam • q.Bp) ⬝ᵥ (q.Ap - q.lam • q.Bp)) • q.p := by
      simp only [gcrStep, axpyV_eq, hK.dot]
      congr 3
      · rw [dotProduct_sub, dotProduct_smul, smul_eq_mul]
      · simp only [dotProduct_sub, sub_dotProduct, dotProduct_smul, smul_dotProduct, smul_eq_mul, dotProduct_comm q.Bp q.Ap]
        ring
    have el : (gcrStep K m q).lam = (mat false m *ᵥ (gcrStep K m q).x) ⬝ᵥ (mat true m *ᵥ (gcrStep K m q).x) /
        (mat true m *ᵥ (gcrStep K m q).x) ⬝ᵥ (mat true m *ᵥ (gcrStep K m q).x) := by
      simp only [gcrStep, hK.mv, hB, hK.dot]
    rw [el, ex]
    exact key

theorem gcrStart_exact (hK : K.Exact mat C) (hB : ∀ m x, K.mv true m x = mat true m *ᵥ x) (m : M) (u : Fin n → ℝ) (jr : ℝ) :
    CrPtInv (mat false m) (mat true m) (gcrStart K m u jr) ∧
      (gcrStart K m u jr).Bp = mat true m *ᵥ (gcrStart K m u jr).p := by
  refine ⟨⟨?_, ?_, ?_⟩, ?_⟩
  · simp only [gcrStart, hK.mv, hB, hK.dot]
  · simp only [gcrStart, smulV_eq, axpyzV_eq, hK.mv, hB]
    module
  · simp only [gcrStart, hK.mv]
  · simp only [gcrStart, hB]

/-- **`lis_ecr`** (the default eigensolver) in real arithmetic, for every preconditioner. There are iterates `y 0, y 1, …`
(`y 0` the initial vector normalized) with Rayleigh quotients `t j = ⟨y j, A y j⟩/⟨y j, y j⟩` such that
* the residual norms `‖A (y j) - t j (y j)‖` **never increase**;
* the residuals recorded, and tested against the tolerance, are `‖A (y j) - t j (y j)‖/|t j - sigma|`;
* what is returned after `k` iterations is `y k/‖y k‖` and `t k`; `A` is restored. -/
theorem lisEcr_exact (hK : K.Exact mat fun _ => 1) (jr : ℝ) (o : EOpts ℝ ℝ) (s : ESt ℝ ℝ M n)
    (hsz : o.maxiter < s.hist.size) (hmax : 1 ≤ o.maxiter) :
    Ok ((lisEcr ltR .success jr o).run K s) fun r => ∃ (y : ℕ → Fin n → ℝ) (t : ℕ → ℝ) (k : ℕ),
      let A := mat false s.m
      let res := fun j => nrm (A *ᵥ y j - t j • y j)
      y 0 = (1 / nrm (eInit o (s.h eV))) • eInit o (s.h eV) ∧
      (∀ j, (t j ≠ o.sigma → y j ≠ 0) ∧ (y j ≠ 0 → t j = y j ⬝ᵥ (A *ᵥ y j) / y j ⬝ᵥ y j)) ∧
      (∀ j, res (j + 1) ≤ res j) ∧
      Stops ltR o (fun j => res j / |t j - o.sigma|) s.hist r.2.hist k ∧ 1 ≤ k ∧
      r.1 = ⟨if res k / |t k - o.sigma| < o.tol then .success else .maxiter, some (k, res k / |t k - o.sigma|, t k)⟩ ∧
      r.2.h eV = (1 / nrm (y k)) • y k ∧ mat false r.2.m = A := by
  refine (lisEcr_contract K ltR jr o s hsz).mono ?_
  rintro r ⟨k, hS, hout, hv, hm⟩
  obtain ⟨m, hmd⟩ : ∃ m, m = shiftIf K o o.sigma s.m := ⟨_, rfl⟩
  rw [← hmd] at hS hout hv hm
  simp only at hS hout hv hm
  obtain ⟨q, hqd⟩ : ∃ q : ℕ → CPt ℝ ℝ n, q = fun j => (crStep K m)^[j] (crStart K m (eInit o (s.h eV)) jr) := ⟨_, rfl⟩
  have hqs : ∀ j, q (j + 1) = crStep K m (q j) := fun j => by rw [hqd]; exact Function.iterate_succ_apply' _ _ _
  have hq0 : q 0 = crStart K m (eInit o (s.h eV)) jr := by rw [hqd]; rfl
  have hqk : ∀ j, (crStep K m)^[j] (crStart K m (eInit o (s.h eV)) jr) = q j := fun j => by rw [hqd]
  simp only [hqk] at hS hout hv
  have hinv : ∀ j, CrPtInv (mat false m) 1 (q j) := by
    intro j
    induction j with
    | zero => rw [hq0]; exact crStart_exact hK m _ _
    | succ j ih => rw [hqs]; exact (crStep_exact hK m ih).1
  have hA : ∀ v, mat false m *ᵥ v = mat false s.m *ᵥ v - o.sigma • v := by
    intro v
    rw [shifted_mulVec hK hmd, Matrix.one_mulVec]
  have hres : ∀ j, mat false s.m *ᵥ (q j).x - ((q j).lam + o.sigma) • (q j).x =
      mat false m *ᵥ (q j).x - (q j).lam • (q j).x := by
    intro j; rw [hA]; module
  have hresid : ∀ j, 1 ≤ j → (q j).resid = nrm (mat false s.m *ᵥ (q j).x - ((q j).lam + o.sigma) • (q j).x) /
      |(q j).lam + o.sigma - o.sigma| := by
    intro j hj
    obtain ⟨i, rfl⟩ : ∃ i, j = i + 1 := ⟨j - 1, by omega⟩
    rw [hres, add_sub_cancel_right, hqs]
    exact (crStep_exact hK m (hinv i)).2.1
  have hk1 : 1 ≤ k := by
    by_contra hk
    have := (hS.stop (by omega)).1
    omega
  refine ⟨fun j => (q j).x, fun j => (q j).lam + o.sigma, k, ?_, ?_, ?_, ?_, hk1, ?_, ?_, ?_⟩
  · simp only [hq0, crStart, hK.unit]
  · intro j
    have h := (hinv j).lam
    simp only [Matrix.one_mulVec] at h
    refine ⟨fun ht hy => ht ?_, fun hy => ?_⟩
    · change (q j).lam + o.sigma = o.sigma
      change (q j).x = 0 at hy
      rw [h, hy]; simp
    change (q j).lam + o.sigma = _
    have hyy : (q j).x ⬝ᵥ (q j).x ≠ 0 := by
      rw [← nrm_sq]; exact mul_ne_zero (fun h => hy (nrm_eq_zero.1 h)) fun h => hy (nrm_eq_zero.1 h)
    rw [hA, sub_dotProduct, smul_dotProduct, dotProduct_comm] at h
    rw [h, smul_eq_mul]
    field_simp
    ring
  · intro j
    simp only [hres]
    rw [hqs]
    exact (crStep_exact hK m (hinv j)).2.2
  · exact hS.congr hresid
  · rw [hout]
    simp only [cgOut, hresid k hk1, ltR_iff]
  · rw [hv, hK.unit]
  · rw [hm]; exact (restored hK hmd).1

/-- **Success of `lis_ecr`**: the vector `x` returned has length one, `l` is its Rayleigh quotient, and
`‖A x - l x‖ = resid |l - sigma|/‖y‖ < tol |l - sigma|/‖y‖` where `y` is the last iterate *before* normalization (the residual
reported is that of `y`, not of `x`).  If `A` is symmetric, it has an eigenvalue that close to `l`. -/
theorem lisEcr_success (hK : K.Exact mat fun _ => 1) (jr : ℝ) (o : EOpts ℝ ℝ) (s : ESt ℝ ℝ M n)
    (hsz : o.maxiter < s.hist.size) (hmax : 1 ≤ o.maxiter) :
    Ok ((lisEcr ltR .success jr o).run K s) fun r => r.1.ret = .success → ∃ k resid l, r.1.res = some (k, resid, l) ∧
      resid < o.tol ∧ mat false r.2.m = mat false s.m ∧ ∃ y, r.2.h eV = (1 / nrm y) • y ∧ (l ≠ o.sigma → y ≠ 0 ∧
        nrm (r.2.h eV) = 1 ∧ l = r.2.h eV ⬝ᵥ (mat false s.m *ᵥ r.2.h eV) ∧
        nrm (mat false s.m *ᵥ r.2.h eV - l • r.2.h eV) = resid * |l - o.sigma| / nrm y ∧
        ((mat false s.m).IsSymm → ∃ mu w, w ≠ 0 ∧ mat false s.m *ᵥ w = mu • w ∧
          |mu - l| < o.tol * |l - o.sigma| / nrm y)) := by
  refine (lisEcr_exact hK jr o s hsz hmax).mono ?_
  rintro r ⟨y, t, k, -, ht, -, -, -, hout, hv, hm⟩ hs
  simp only at hout
  rw [hout] at hs
  simp only [ite_eq_left_iff, not_lt, reduceCtorEq, imp_false, not_le] at hs
  refine ⟨k, _, t k, by rw [hout], hs, hm, y k, hv, fun hl => ?_⟩
  have hy := (ht k).1 hl
  have hyp : 0 < nrm (y k) := lt_of_le_of_ne (nrm_nonneg _) fun h => hy (nrm_eq_zero.1 h.symm)
  have hlp : 0 < |t k - o.sigma| := abs_pos.2 (sub_ne_zero.2 hl)
  have h1 : nrm (r.2.h eV) = 1 := by rw [hv]; exact nrm_unit hy
  have h2 : mat false s.m *ᵥ r.2.h eV - t k • r.2.h eV = (1 / nrm (y k)) • (mat false s.m *ᵥ y k - t k • y k) := by
    rw [hv, Matrix.mulVec_smul]; module
  have h3 : nrm (mat false s.m *ᵥ r.2.h eV - t k • r.2.h eV) =
      nrm (mat false s.m *ᵥ y k - t k • y k) / |t k - o.sigma| * |t k - o.sigma| / nrm (y k) := by
    rw [h2, nrm_smul, abs_of_pos (by positivity : 0 < 1 / nrm (y k))]
    field_simp
  refine ⟨hy, h1, ?_, h3, fun hsym => ?_⟩
  · rw [(ht k).2 hy, hv, Matrix.mulVec_smul, smul_dotProduct, dotProduct_smul, ← nrm_sq]
    simp only [smul_eq_mul]
    field_simp
  · obtain ⟨mu, w, w1, w2, w3⟩ := symm_eigenvalue_near hsym (r.2.h eV) (fun h => by rw [h] at h1; simp [nrm] at h1) (t k)
    refine ⟨mu, w, w1, w2, ?_⟩
    rw [h1, mul_one, h3] at w3
    refine w3.trans_lt ?_
    gcongr

/-- **`lis_egcr`** in real arithmetic, for every preconditioner: the same with `t j = ⟨A'y, B y⟩/⟨B y, B y⟩ + sigma` where
`A' = A - sigma B`, and residual norms `‖A (y j) - t j B (y j)‖`, which never increase. -/
theorem lisEgcr_exact (hK : K.Exact mat (mat true)) (hB : ∀ m x, K.mv true m x = mat true m *ᵥ x) (jr : ℝ) (o : EOpts ℝ ℝ)
    (s : ESt ℝ ℝ M n) (hsz : o.maxiter < s.hist.size) (hmax : 1 ≤ o.maxiter) :
    Ok ((lisEgcr ltR .success jr o).run K s) fun r => ∃ (y : ℕ → Fin n → ℝ) (t : ℕ → ℝ) (k : ℕ),
      let A := mat false s.m
      let B := mat true s.m
      let res := fun j => nrm (A *ᵥ y j - t j • (B *ᵥ y j))
      y 0 = (1 / nrm (eInit o (s.h eV))) • eInit o (s.h eV) ∧
      (∀ j, (t j ≠ o.sigma → B *ᵥ y j ≠ 0) ∧ (B *ᵥ y j ≠ 0 → t j = (A *ᵥ y j) ⬝ᵥ (B *ᵥ y j) / (B *ᵥ y j) ⬝ᵥ (B *ᵥ y j))) ∧
      (∀ j, res (j + 1) ≤ res j) ∧
      Stops ltR o (fun j => res j / |t j - o.sigma|) s.hist r.2.hist k ∧ 1 ≤ k ∧
      r.1 = ⟨if res k / |t k - o.sigma| < o.tol then .success else .maxiter, some (k, res k / |t k - o.sigma|, t k)⟩ ∧
      r.2.h eV = (1 / nrm (y k)) • y k ∧ mat false r.2.m = A ∧ mat true r.2.m = B := by
  refine (lisEgcr_contract K ltR jr o s hsz).mono ?_
  rintro r ⟨k, hS, hout, hv, hm⟩
  obtain ⟨m, hmd⟩ : ∃ m, m = shiftIf K o o.sigma s.m := ⟨_, rfl⟩
  rw [← hmd] at hS hout hv hm
  simp only at hS hout hv hm
  obtain ⟨q, hqd⟩ : ∃ q : ℕ → CPt ℝ ℝ n, q = fun j => (gcrStep K m)^[j] (gcrStart K m (eInit o (s.h eV)) jr) := ⟨_, rfl⟩
  have hqs : ∀ j, q (j + 1) = gcrStep K m (q j) := fun j => by rw [hqd]; exact Function.iterate_succ_apply' _ _ _
  have hq0 : q 0 = gcrStart K m (eInit o (s.h eV)) jr := by rw [hqd]; rfl
  have hqk : ∀ j, (gcrStep K m)^[j] (gcrStart K m (eInit o (s.h eV)) jr) = q j := fun j => by rw [hqd]
  simp only [hqk] at hS hout hv
  have hinv : ∀ j, CrPtInv (mat false m) (mat true m) (q j) ∧ (q j).Bp = mat true m *ᵥ (q j).p := by
    intro j
    induction j with
    | zero => rw [hq0]; exact gcrStart_exact hK hB m _ _
    | succ j ih => rw [hqs]; exact (gcrStep_exact hK hB m ih).1
  have hA : ∀ v, mat false m *ᵥ v = mat false s.m *ᵥ v - o.sigma • (mat true s.m *ᵥ v) := shifted_mulVec hK hmd
  have hBm : mat true m = mat true s.m := by rw [hmd]; exact hK.shiftIfC o _ _
  have hres : ∀ j, mat false s.m *ᵥ (q j).x - ((q j).lam + o.sigma) • (mat true s.m *ᵥ (q j).x) =
      mat false m *ᵥ (q j).x - (q j).lam • (mat true m *ᵥ (q j).x) := by
    intro j; rw [hA, hBm]; module
  have hresid : ∀ j, 1 ≤ j → (q j).resid =
      nrm (mat false s.m *ᵥ (q j).x - ((q j).lam + o.sigma) • (mat true s.m *ᵥ (q j).x)) /
      |(q j).lam + o.sigma - o.sigma| := by
    intro j hj
    obtain ⟨i, rfl⟩ : ∃ i, j = i + 1 := ⟨j - 1, by omega⟩
    rw [hres, add_sub_cancel_right, hqs]
    exact (gcrStep_exact hK hB m (hinv i)).2.1
  have hk1 : 1 ≤ k := by
    by_contra hk
    have := (hS.stop (by omega)).1
    omega
  refine ⟨fun j => (q j).x, fun j => (q j).lam + o.sigma, k, ?_, ?_, ?_, ?_, hk1, ?_, ?_, ?_, ?_⟩
  · simp only [hq0, gcrStart, hK.unit]
  · intro j
    have h := (hinv j).1.lam
    rw [hBm] at h
    refine ⟨fun ht hy => ht ?_, fun hy => ?_⟩
    · change (q j).lam + o.sigma = o.sigma
      change mat true s.m *ᵥ (q j).x = 0 at hy
      rw [h, hy]; simp
    change (q j).lam + o.sigma = _
    have hyy : (mat true s.m *ᵥ (q j).x) ⬝ᵥ (mat true s.m *ᵥ (q j).x) ≠ 0 := by
      rw [← nrm_sq]; exact mul_ne_zero (fun h => hy (nrm_eq_zero.1 h)) fun h => hy (nrm_eq_zero.1 h)
    rw [hA, sub_dotProduct, smul_dotProduct] at h
    rw [h, smul_eq_mul]
    field_simp
    ring
  · intro j
    simp only [hres]
    rw [hqs]
    exact (gcrStep_exact hK hB m (hinv j)).2.2
  · exact hS.congr hresid
  · rw [hout]
    simp only [cgOut, hresid k hk1, ltR_iff]
  · rw [hv, hK.unit]
  · rw [hm]; exact (restored hK hmd).1
  · rw [hm]; exact (restored hK hmd).2

/-- what holds at every point of CG when the first linear solve left the residual `e = x₀ - A' p₀` -/
structure CgPtInv (A : Matrix (Fin n) (Fin n) ℝ) (e : Fin n → ℝ) (q : CPt ℝ ℝ n) : Prop where
  x1 : q.x = 0 ∨ nrm q.x = 1
  Ax : ∃ d : ℝ, q.Ax = A *ᵥ q.x + d • e
  Ap : ∃ d : ℝ, q.Ap = A *ᵥ q.p + d • e

theorem cgStep_exact (hK : K.Exact mat C) (rr : Arr ℝ → Arr ℝ → ℝ × ℝ × ℝ) (tol : ℝ) (m : M) {e : Fin n → ℝ}
    {q : CPt ℝ ℝ n} (hq : CgPtInv (mat false m) e q) : CgPtInv (mat false m) e (cgStep rr ltR tol K m q) ∧
    (cgStep rr ltR tol K m q).lam = q.x ⬝ᵥ q.Ax ∧
    (cgStep rr ltR tol K m q).resid = nrm (q.x - (1 / (q.x ⬝ᵥ q.Ax)) • q.Ax) ∧
    ((cgStep rr ltR tol K m q).resid < tol → (cgStep rr ltR tol K m q).x = q.x) := by
  have hr : axpyzV (-1 / K.base.dot q.x q.Ax) q.Ax q.x = q.x - (1 / (q.x ⬝ᵥ q.Ax)) • q.Ax := by
    rw [axpyzV_eq, hK.dot]; module
  by_cases hc : ltR (K.base.nrm2 (axpyzV (-1 / K.base.dot q.x q.Ax) q.Ax q.x)) tol = true
  · have hs : cgStep rr ltR tol K m q = { q with
        r := axpyzV (-1 / K.base.dot q.x q.Ax) q.Ax q.x, lam := K.base.dot q.x q.Ax,
        resid := K.base.nrm2 (axpyzV (-1 / K.base.dot q.x q.Ax) q.Ax q.x) } := by
      simp only [cgStep, hc, if_true]
    rw [hs]
    exact ⟨⟨hq.x1, hq.Ax, hq.Ap⟩, hK.dot _ _, by simp only [hr, hK.nrm2], fun _ => rfl⟩
  · obtain ⟨w, hw⟩ : ∃ w, w = unit K.base (K.base.ps (axpyzV (-1 / K.base.dot q.x q.Ax) q.Ax q.x)) := ⟨_, rfl⟩
    obtain ⟨v, hv⟩ : ∃ v : ℝ × ℝ × ℝ, v = rr
      (mat3 (K.base.dot w (K.mv false m w)) (K.base.dot q.x (K.mv false m w)) (K.base.dot q.p (K.mv false m w))
        (K.base.dot q.x q.Ax) (K.base.dot q.p q.Ax) (K.base.dot q.p q.Ap))
      (mat3 (K.base.dot w w) (K.base.dot q.x w) (K.base.dot q.p w) (K.base.dot q.x q.x) (K.base.dot q.p q.x)
        (K.base.dot q.p q.p)) := ⟨_, rfl⟩
    obtain ⟨p, hp⟩ : ∃ p, p = v.1 • w + v.2.2 • q.p := ⟨_, rfl⟩
    obtain ⟨x, hx⟩ : ∃ x, x = p + v.2.1 • q.x := ⟨_, rfl⟩
    obtain ⟨Ap, hAp⟩ : ∃ Ap, Ap = v.1 • (mat false m *ᵥ w) + v.2.2 • q.Ap := ⟨_, rfl⟩
    obtain ⟨Ax, hAx⟩ : ∃ Ax, Ax = Ap + v.2.1 • q.Ax := ⟨_, rfl⟩
    have hs : cgStep rr ltR tol K m q = { q with
        x := (1 / nrm x) • x, r := axpyzV (-1 / K.base.dot q.x q.Ax) q.Ax q.x,
        p := (1 / nrm p) • p, Ax := (1 / nrm x) • Ax, Ap := (1 / nrm p) • Ap, lam := K.base.dot q.x q.Ax,
        resid := K.base.nrm2 (axpyzV (-1 / K.base.dot q.x q.Ax) q.Ax q.x) } := by
      simp only [cgStep, hc, ← hw, ← hv]
      simp only [Bool.false_eq_true, if_false, smulV_eq, axpyV_eq, xpayV_eq, hK.nrm2, hK.mv, ← hp, ← hx, ← hAp, ← hAx]
      rfl
    obtain ⟨d1, e1⟩ := hq.Ax
    obtain ⟨d2, e2⟩ := hq.Ap
    have eAp : Ap = mat false m *ᵥ p + (v.2.2 * d2) • e := by
      rw [hAp, e2, hp, Matrix.mulVec_add, Matrix.mulVec_smul, Matrix.mulVec_smul]; module
    have eAx : Ax = mat false m *ᵥ x + (v.2.2 * d2 + v.2.1 * d1) • e := by
      rw [hAx, eAp, e1, hx, Matrix.mulVec_add, Matrix.mulVec_smul]; module
    have hres : K.base.nrm2 (axpyzV (-1 / K.base.dot q.x q.Ax) q.Ax q.x) = nrm (q.x - (1 / (q.x ⬝ᵥ q.Ax)) • q.Ax) := by
      rw [hr, hK.nrm2]
    rw [hs]
    refine ⟨⟨?_, ⟨1 / nrm x * (v.2.2 * d2 + v.2.1 * d1), ?_⟩, ⟨1 / nrm p * (v.2.2 * d2), ?_⟩⟩, hK.dot _ _, hres, fun h => ?_⟩
    · by_cases h0 : x = 0
      · left; simp [h0]
      · right; exact nrm_unit h0
    · simp only [eAx, Matrix.mulVec_smul]; module
    · simp only [eAp, Matrix.mulVec_smul]; module
    · simp only at h
      exact absurd (ltR_iff.2 h) hc

/-- **`lis_ecg`** in real arithmetic, for every preconditioner and every result of the 3×3 iteration: suppose the first linear
solve, for the initial vector `x₀ = u/‖u‖`, leaves the residual `e = x₀ - (A - sigma) p`. There is a vector `y` with
`‖y‖ = 1` or `y = 0`, and a number `d`, such that with `l` the eigenvalue and `resid` the residual reported
`l - sigma = ⟨y, (A - sigma) y + d e⟩` and, unless that is zero, `‖A y - l y + d e‖ = resid |l - sigma|`.
On success `resid < tol` and `y` is the vector returned; otherwise the vector returned is one step further than the numbers.
`A` is restored. -/
theorem lisEcg_exact (hK : K.Exact mat fun _ => 1) (rr : Arr ℝ → Arr ℝ → ℝ × ℝ × ℝ) (jl jr : ℝ) (o : EOpts ℝ ℝ)
    (s : ESt ℝ ℝ M n) (hsz : o.maxiter < s.hist.size) (hmax : 1 ≤ o.maxiter)
    (p : Fin n → ℝ)
    (hlin : K.lin false (shiftIf K o o.sigma s.m) (unit K.base (eInit o (s.h eV))) (s.h 3) = (.success, p)) :
    Ok ((lisEcg rr ltR .success jl jr o).run K s) fun r =>
      let A := mat false s.m
      let e := (1 / nrm (eInit o (s.h eV))) • eInit o (s.h eV) - (A *ᵥ p - o.sigma • p)
      mat false r.2.m = A ∧ ∃ (k : ℕ) (resid l : ℝ) (y : Fin n → ℝ) (d : ℝ), 1 ≤ k ∧ k ≤ o.maxiter ∧
      r.1.res = some (k, resid, l) ∧ (o.mem = true → r.2.hist.get k = resid) ∧ (y = 0 ∨ nrm y = 1) ∧
      l - o.sigma = y ⬝ᵥ (A *ᵥ y - o.sigma • y + d • e) ∧
      (l ≠ o.sigma → nrm (A *ᵥ y - l • y + d • e) = resid * |l - o.sigma|) ∧
      (r.1.ret = .success ↔ resid < o.tol) ∧ (r.1.ret = .success → r.2.h eV = y) ∧
      (r.1.ret = .success ∨ (r.1.ret = .maxiter ∧ k = o.maxiter)) := by
  refine (lisEcg_contract K rr ltR jl jr o s hsz p hlin).mono ?_
  rintro r ⟨k, hS, hout, hv, hm⟩
  obtain ⟨m, hmd⟩ : ∃ m, m = shiftIf K o o.sigma s.m := ⟨_, rfl⟩
  rw [← hmd] at hS hout hv hm
  simp only at hS hout hv hm
  obtain ⟨q, hqd⟩ : ∃ q : ℕ → CPt ℝ ℝ n,
    q = fun j => (cgStep rr ltR o.tol K m)^[j] (cgStart K m (eInit o (s.h eV)) p jl jr) := ⟨_, rfl⟩
  have hqs : ∀ j, q (j + 1) = cgStep rr ltR o.tol K m (q j) := fun j => by
    rw [hqd]; exact Function.iterate_succ_apply' _ _ _
  have hq0 : q 0 = cgStart K m (eInit o (s.h eV)) p jl jr := by rw [hqd]; rfl
  have hqk : ∀ j, (cgStep rr ltR o.tol K m)^[j] (cgStart K m (eInit o (s.h eV)) p jl jr) = q j := fun j => by rw [hqd]
  simp only [hqk] at hS hout hv
  have hA : ∀ v, mat false m *ᵥ v = mat false s.m *ᵥ v - o.sigma • v := by
    intro v
    rw [shifted_mulVec hK hmd, Matrix.one_mulVec]
  simp only
  obtain ⟨e, he⟩ : ∃ e, e = (1 / nrm (eInit o (s.h eV))) • eInit o (s.h eV) - (mat false s.m *ᵥ p - o.sigma • p) := ⟨_, rfl⟩
  rw [← he]
  have hinv : ∀ j, CgPtInv (mat false m) e (q j) := by
    intro j
    induction j with
    | zero =>
      rw [hq0]
      refine ⟨?_, ⟨0, ?_⟩, ⟨1, ?_⟩⟩
      · simp only [cgStart, hK.unit]
        by_cases h0 : eInit o (s.h eV) = 0
        · left; simp [h0]
        · right; exact nrm_unit h0
      · simp only [cgStart, hK.mv]; simp
      · simp only [cgStart, hK.unit]
        rw [he, hA]; module
    | succ j ih => rw [hqs]; exact (cgStep_exact hK rr o.tol m ih).1
  have hk1 : 1 ≤ k := by
    by_contra hk
    have := (hS.stop (by omega)).1
    omega
  obtain ⟨i, rfl⟩ : ∃ i, k = i + 1 := ⟨k - 1, by omega⟩
  obtain ⟨-, f1, f2, f3⟩ := cgStep_exact hK rr o.tol m (hinv i)
  rw [← hqs] at f1 f2 f3
  obtain ⟨d, hd⟩ := (hinv i).Ax
  refine ⟨by rw [hm]; exact (restored hK hmd).1, i + 1, (q (i + 1)).resid, (q (i + 1)).lam + o.sigma, (q i).x, d, hk1, hS.le,
    by rw [hout]; rfl, fun hmem => hS.rec_ hmem _ hk1 le_rfl, (hinv i).x1, ?_, fun hl => ?_, ?_, fun hsuc => ?_, ?_⟩
  · rw [add_sub_cancel_right, f1, hd, hA]
  · rw [add_sub_cancel_right]
    have hl0 : (q (i + 1)).lam ≠ 0 := fun h => hl (by rw [h]; simp)
    rw [f2, ← f1]
    have : mat false s.m *ᵥ (q i).x - ((q (i + 1)).lam + o.sigma) • (q i).x + d • e =
        (-(q (i + 1)).lam) • ((q i).x - (1 / (q (i + 1)).lam) • (q i).Ax) := by
      rw [smul_sub, smul_smul, show -(q (i + 1)).lam * (1 / (q (i + 1)).lam) = -1 by field_simp, hd, hA]
      module
    rw [this, nrm_smul, abs_neg, mul_comm]
  · rw [hout]
    simp [cgOut, ltR_iff]
  · rw [hout] at hsuc
    simp only [cgOut, ite_eq_left_iff, Bool.not_eq_true, reduceCtorEq, imp_false, Bool.not_eq_false, ltR_iff] at hsuc
    rw [hv]; exact f3 (not_not.1 hsuc)
  · rw [hout]
    by_cases h : (q (i + 1)).resid < o.tol
    · left; simp [cgOut, ltR_iff, h]
    · right
      refine ⟨by simp [cgOut, ltR_iff, h], ?_⟩
      by_contra hne
      exact h (ltR_iff.1 (hS.stop (lt_of_le_of_ne hS.le hne)).2)

/-- **Success of `lis_ecg`** with an exact first linear solve: the pair `(l, x)` returned satisfies `‖x‖ = 1`,
`l = ⟨x, A x⟩` and `‖A x - l x‖ = resid |l - sigma| < tol |l - sigma|`; if `A` is symmetric, it has an eigenvalue that close to
`l`. -/
theorem lisEcg_success (hK : K.Exact mat fun _ => 1) (rr : Arr ℝ → Arr ℝ → ℝ × ℝ × ℝ) (jl jr : ℝ) (o : EOpts ℝ ℝ)
    (s : ESt ℝ ℝ M n) (hsz : o.maxiter < s.hist.size) (hmax : 1 ≤ o.maxiter)
    (p : Fin n → ℝ)
    (hlin : K.lin false (shiftIf K o o.sigma s.m) (unit K.base (eInit o (s.h eV))) (s.h 3) = (.success, p))
    (hp : mat false s.m *ᵥ p - o.sigma • p = (1 / nrm (eInit o (s.h eV))) • eInit o (s.h eV)) :
    Ok ((lisEcg rr ltR .success jl jr o).run K s) fun r => r.1.ret = .success → ∃ k resid l, r.1.res = some (k, resid, l) ∧
      resid < o.tol ∧ mat false r.2.m = mat false s.m ∧ (l ≠ o.sigma →
        nrm (r.2.h eV) = 1 ∧ l = r.2.h eV ⬝ᵥ (mat false s.m *ᵥ r.2.h eV) ∧
        nrm (mat false s.m *ᵥ r.2.h eV - l • r.2.h eV) = resid * |l - o.sigma| ∧
        ((mat false s.m).IsSymm → ∃ mu w, w ≠ 0 ∧ mat false s.m *ᵥ w = mu • w ∧ |mu - l| < o.tol * |l - o.sigma|)) := by
  refine (lisEcg_exact hK rr jl jr o s hsz hmax p hlin).mono ?_
  rintro r ⟨hm, k, resid, l, y, d, -, -, h1, -, h2, h3, h4, h5, h6, -⟩ hs
  rw [hp, sub_self] at h3 h4
  simp only [smul_zero, add_zero] at h3 h4
  refine ⟨k, resid, l, h1, h5.1 hs, hm, fun hl => ?_⟩
  rw [h6 hs]
  have hy : y ≠ 0 := by
    rintro rfl
    apply hl
    simp only [zero_dotProduct] at h3
    linarith
  have hy1 : nrm y = 1 := h2.resolve_left hy
  have hyy : y ⬝ᵥ y = 1 := by rw [← nrm_sq, hy1]; simp
  refine ⟨hy1, ?_, h4 hl, fun hsym => ?_⟩
  · rw [dotProduct_sub, dotProduct_smul, hyy, smul_eq_mul, mul_one] at h3
    linarith
  · obtain ⟨mu, w, w1, w2, w3⟩ := symm_eigenvalue_near hsym y hy l
    refine ⟨mu, w, w1, w2, ?_⟩
    rw [hy1, mul_one, h4 hl] at w3
    refine w3.trans_lt ?_
    have : 0 < |l - o.sigma| := abs_pos.2 (sub_ne_zero.2 hl)
    have := h5.1 hs
    gcongr

end Lis
