import Verif.Props.EsolverSi
import Verif.Props.EsolverExact
import Verif.Props.EsolverCgExact
import Verif.Props.EsolverFindings
import Mathlib.Tactic.Linarith
import Mathlib.Tactic.LinearCombination

/-!
# C61 in real arithmetic: what the results of subspace iteration say about the matrix

`A = mat false s.m` is the matrix the caller gave. Division by zero (where the floating-point program computes NaN) is
excluded by the condition `l ≠ sigma` on the eigenvalue reported.
-/

namespace Lis
open Matrix
variable {M : Type} {n : ℕ} {K : EKit ℝ ℝ M n} {mat : Bool → M → Matrix (Fin n) (Fin n) ℝ}

/-- zero or of length one -/
def UnitOrZero (v : Fin n → ℝ) : Prop := v = 0 ∨ nrm v = 1

theorem UnitOrZero.le {v : Fin n → ℝ} (h : UnitOrZero v) : nrm v ≤ 1 := by
  rcases h with h | h
  · rw [h]; simp [nrm]
  · exact h.le

theorem unit_unitOrZero (hK : K.Exact mat fun _ => 1) (v : Fin n → ℝ) : UnitOrZero (unit K.base v) := by
  rw [hK.unit]
  by_cases h : v = 0
  · left; rw [h]; simp
  · right; exact nrm_unit h

theorem nrm_project_le (v w : Fin n → ℝ) (hw : UnitOrZero w) : nrm (axpyV (-(v ⬝ᵥ w)) w v) ≤ nrm v := by
  have e : axpyV (-(v ⬝ᵥ w)) w v = v - (v ⬝ᵥ w) • w := by
    funext i; simp [axpyV]; ring
  rw [e]
  unfold nrm
  apply Real.sqrt_le_sqrt
  rcases hw with h | h
  · rw [h]; simp
  · have hww : w ⬝ᵥ w = 1 := by rw [← nrm_sq, h]; simp
    have : (v - (v ⬝ᵥ w) • w) ⬝ᵥ (v - (v ⬝ᵥ w) • w) = v ⬝ᵥ v - (v ⬝ᵥ w) * (v ⬝ᵥ w) := by
      simp only [sub_dotProduct, dotProduct_sub, smul_dotProduct, dotProduct_smul, hww, smul_eq_mul, dotProduct_comm w v]
      ring
    rw [this]
    have := mul_self_nonneg (v ⬝ᵥ w)
    linarith

theorem nrm_orthAll_le (hK : K.Exact mat fun _ => 1) (vs : List (Fin n → ℝ)) (hvs : ∀ w ∈ vs, UnitOrZero w) (v : Fin n → ℝ) :
    nrm (orthAll K.base vs v) ≤ nrm v := by
  induction vs using List.reverseRecOn generalizing v with
  | nil => exact le_rfl
  | append_singleton vs w ih =>
    rw [orthAll_snoc, hK.dot]
    refine (nrm_project_le _ _ (hvs w (by simp))).trans (ih (fun u hu => hvs u (by simp [hu])) v)

theorem siStep_unit (hK : K.Exact mat fun _ => 1) (inner : SiInner) (m : M) (vs : List (Fin n → ℝ)) (q : SiPt ℝ ℝ n)
    (h : UnitOrZero q.v) : UnitOrZero (siStep K inner m vs q).v := by
  unfold siStep
  simp only
  split
  · exact h
  · exact unit_unitOrZero hK _

theorem siIterate_unit (hK : K.Exact mat fun _ => 1) (inner : SiInner) (m : M) (vs : List (Fin n → ℝ)) (q : SiPt ℝ ℝ n)
    (h : UnitOrZero q.v) (k : ℕ) : UnitOrZero ((siStep K inner m vs)^[k] q).v := by
  induction k with
  | zero => exact h
  | succ k ih => rw [Function.iterate_succ_apply']; exact siStep_unit hK inner m vs _ ih

theorem siEnds_unit (hK : K.Exact mat fun _ => 1) (lt : ℝ → ℝ → Bool) (inner : SiInner) (o : EOpts ℝ ℝ) (m : M)
    (q : SiPt ℝ ℝ n) (h : UnitOrZero q.v) (j : ℕ) : ∀ p ∈ siEnds K lt inner o m q j, UnitOrZero p.v := by
  induction j with
  | zero => simp [siEnds]
  | succ j ih =>
    intro p hp
    unfold siEnds at hp
    simp only [List.mem_append, List.mem_singleton] at hp
    rcases hp with hp | hp
    · exact ih p hp
    · rw [hp]
      refine siIterate_unit hK inner m _ _ ?_ _
      cases hl : (siEnds K lt inner o m q j).getLast? with
      | none => exact h
      | some p => exact ih p (List.mem_of_getLast? hl)

/-- the last iteration of mode `j` -/
theorem siMode_last (hK : K.Exact mat fun _ => 1) (lt : ℝ → ℝ → Bool) (inner : SiInner) (o : EOpts ℝ ℝ) (m : M)
    (q : SiPt ℝ ℝ n) (h : UnitOrZero q.v) (j : ℕ) (hk : 1 ≤ siIter K lt inner o m q j) :
    ∃ p : SiPt ℝ ℝ n, siMode' K lt inner o m q j = siStep K inner m ((siEnds K lt inner o m q j).map SiPt.v) p ∧
      UnitOrZero p.v ∧ nrm (orthAll K.base ((siEnds K lt inner o m q j).map SiPt.v) p.v) ≤ 1 := by
  obtain ⟨k, hk'⟩ : ∃ k, siIter K lt inner o m q j = k + 1 := ⟨_, (Nat.sub_add_cancel hk).symm⟩
  have he := siEnds_unit hK lt inner o m q h j
  have hu : UnitOrZero ((siEnds K lt inner o m q j).getLast?.getD q).v := by
    cases hl : (siEnds K lt inner o m q j).getLast? with
    | none => exact h
    | some p => exact he p (List.mem_of_getLast? hl)
  have hp := siIterate_unit hK inner m ((siEnds K lt inner o m q j).map SiPt.v) _ hu k
  refine ⟨_, ?_, hp, ?_⟩
  · rw [← Function.iterate_succ_apply' (siStep K inner m _), Nat.succ_eq_add_one, ← hk']; rfl
  · refine (nrm_orthAll_le hK _ ?_ _).trans hp.le
    intro w hw
    rw [List.mem_map] at hw
    obtain ⟨p, hp, rfl⟩ := hw
    exact he p hp

theorem siStart_unit (hK : K.Exact mat fun _ => 1) (jt jr : ℝ) : UnitOrZero (siStart K jt jr).v := unit_unitOrZero hK _

theorem ltR_tol {a b : ℝ} : ltR a b = true ↔ a < b := by simp [ltR]

/-- **`lis_esi` with inverse iteration** in real arithmetic, with a linear solver that leaves the residual
`‖v - (A - sigma) y‖ ≤ delta ‖v‖`. Unless an error is returned, `A` is restored, and every mode `j` reports an iteration count
`k ≤ emaxiter`, a residual below the tolerance if `k < emaxiter`, and a pair `(l, x)` with `‖x‖ = 1` and
`‖A x - l x‖ ≤ (resid + delta) |l - sigma|` (`l ≠ sigma`); the vector returned in `x` is that of mode 0. -/
theorem lisEsi_ii_exact (hK : K.Exact mat fun _ => 1) (delta : ℝ) (hd0 : 0 ≤ delta)
    (hlin : ∀ m v y0 y, K.lin false m v y0 = (.success, y) → nrm (v - mat false m *ᵥ y) ≤ delta * nrm v)
    (perr : ℕ → Err) (ss : ℕ) (hss : 1 ≤ ss) (jt jr : ℝ) (o : EOpts ℝ ℝ) (s : ESt ℝ ℝ M n)
    (hsz : o.maxiter < s.hist.size) (h0 : o.ishift = 0) :
    Ok ((lisEsi ltR .ii perr ss jt jr o).run K s) fun r => r.1.ret = .success →
      mat false r.2.m = mat false s.m ∧ r.2.h eV = r.2.h (ss + 5) ∧ r.1.modes.length = ss ∧
      ∀ j, j < ss → ∃ k resid l, r.1.modes[j]? = some (some (k, resid, l)) ∧ k ≤ o.maxiter ∧
        (k < o.maxiter → resid < o.tol) ∧
        (1 ≤ k → l ≠ o.sigma → nrm (r.2.h (ss + 5 + j)) = 1 ∧
          nrm (mat false s.m *ᵥ r.2.h (ss + 5 + j) - l • r.2.h (ss + 5 + j)) ≤ (resid + delta) * |l - o.sigma|) := by
  refine (lisEsi_spec K ltR .ii perr ss hss jt jr o s hsz h0).mono ?_
  rintro r ⟨h1, h2, -⟩ hs
  obtain ⟨m, hm⟩ : ∃ m, m = shiftIf K o o.sigma s.m := ⟨_, rfl⟩
  obtain ⟨q, hq⟩ : ∃ q : SiPt ℝ ℝ n, q = siStart K jt jr := ⟨_, rfl⟩
  rw [← hm, ← hq] at h1 h2
  have hall : ∀ j, j < ss → siErr K ltR .ii perr o m q j = .success := by
    by_contra hc
    classical
    push Not at hc
    have := h2 (Nat.find hc) (Nat.find_spec hc).1 (Nat.find_spec hc).2 (fun l hl => by
      by_contra hc'
      exact Nat.find_min hc hl ⟨hl.trans (Nat.find_spec hc).1, hc'⟩)
    rw [this.1] at hs
    exact (Nat.find_spec hc).2 hs
  obtain ⟨a1, a2, a3, a4⟩ := h1 hall
  refine ⟨by rw [a2]; exact (restored hK hm).1, by rw [a4, ← a3 0 hss], by rw [a1]; simp, fun j hj => ?_⟩
  refine ⟨_, _, _, by rw [a1]; simp only [List.getElem?_map, List.getElem?_range hj]; rfl, ?_⟩
  obtain ⟨b0, b1, -, b3⟩ := siIter_spec K ltR .ii o m q j
  have herr : (siMode' K ltR .ii o m q j).err = .success := by
    have := hall j hj
    unfold siErr at this
    split at this
    · rename_i hc; exact absurd this hc
    · exact this
  refine ⟨b1, fun hk => ?_, fun hk hl => ?_⟩
  · obtain ⟨-, h | h⟩ := b3 hk
    · rw [b0] at h; exact absurd herr h
    · rw [b0] at h; exact ltR_tol.1 h
  · rw [a3 j hj]
    obtain ⟨p, p1, p2, p3⟩ := siMode_last hK ltR .ii o m q (hq ▸ siStart_unit hK jt jr) j hk
    generalize (siEnds K ltR .ii o m q j).map SiPt.v = vs at p1 p3
    generalize siMode' K ltR .ii o m q j = P at *
    obtain ⟨u, hu⟩ : ∃ u, u = orthAll K.base vs p.v := ⟨_, rfl⟩
    rw [← hu] at p3
    unfold siStep at p1
    simp only [siImage, ← hu] at p1
    split at p1
    · rename_i hc
      rw [p1] at herr
      exact absurd herr hc
    · rename_i hc
      rw [not_not] at hc
      obtain ⟨y, hy⟩ : ∃ y, y = (K.lin false m u p.v).2 := ⟨_, rfl⟩
      have hlin' : K.lin false m u p.v = (.success, y) := by rw [← hc, hy]
      have hd := hlin _ _ _ _ hlin'
      rw [← hy] at p1
      have t1 : P.theta = u ⬝ᵥ y := by rw [p1]; exact hK.dot _ _
      have t2 : P.resid = nrm (y - (u ⬝ᵥ y) • u) / |u ⬝ᵥ y| := by rw [p1]; simp only; rw [hK.relRes, hK.dot]
      have t3 : P.v = (1 / nrm y) • y := by rw [p1]; exact hK.unit y
      have hq0 : P.theta ≠ 0 := fun h => hl (by simp [h])
      have hy0 : y ≠ 0 := by rintro h; apply hq0; rw [t1, h]; simp
      have hyn : 0 < nrm y := lt_of_le_of_ne (nrm_nonneg _) fun h => hy0 (nrm_eq_zero.1 h.symm)
      have hty : |P.theta| ≤ nrm y := by
        rw [t1]
        refine (abs_dot_le u y).trans ?_
        have := mul_le_mul_of_nonneg_right p3 hyn.le
        linarith
      rw [← t1] at t2
      rw [shifted_mulVec hK hm] at hd
      simp only [Matrix.one_mulVec] at hd
      have hd' : nrm (u - (mat false s.m *ᵥ y - o.sigma • y)) ≤ delta :=
        hd.trans (mul_le_of_le_one_right hd0 p3)
      rw [t3]
      refine ⟨nrm_unit hy0, ?_⟩
      have e : mat false s.m *ᵥ (1 / nrm y) • y - (1 / P.theta + o.sigma) • (1 / nrm y) • y =
          (1 / nrm y) • (-(u - (mat false s.m *ᵥ y - o.sigma • y)) + (-(1 / P.theta)) • (y - P.theta • u)) := by
        rw [Matrix.mulVec_smul, smul_sub (-(1 / P.theta)), smul_smul _ P.theta]
        rw [show -(1 / P.theta) * P.theta = -1 by field_simp]
        module
      rw [e, nrm_smul, abs_of_nonneg (by positivity), add_sub_cancel_right]
      have g1 := nrm_add_le (-(u - (mat false s.m *ᵥ y - o.sigma • y))) ((-(1 / P.theta)) • (y - P.theta • u))
      rw [nrm_neg, nrm_smul, abs_neg, abs_div, abs_one] at g1
      have hta : 0 < |P.theta| := abs_pos.2 hq0
      have g2 : nrm (-(u - (mat false s.m *ᵥ y - o.sigma • y)) + (-(1 / P.theta)) • (y - P.theta • u)) ≤
          P.resid + delta := by
        refine g1.trans ?_
        rw [t2, one_div_mul_eq_div]
        linarith
      have g3 : 1 / nrm y ≤ |1 / P.theta| := by
        rw [abs_div, abs_one]
        exact one_div_le_one_div_of_le hta hty
      rw [mul_comm]
      exact mul_le_mul g2 g3 (by positivity) ((nrm_nonneg _).trans g2)

/-- with power iteration (or an inner eigensolver that is not implemented) no mode meets an error -/
theorem siErr_pi {R S : Type} [Zero R] [One R] [Add R] [Neg R] [Mul R] [Div R] [DecidableEq R] [RealOps S] [EigOps R S]
    (K : EKit R S M n) (lt : S → S → Bool) (inner : SiInner) (hi : inner ≠ .ii) (perr : ℕ → Err) (o : EOpts R S) (m : M)
    (q : SiPt R S n) (hq : q.err = .success) (j : ℕ) : siErr K lt inner perr o m q j = .success := by
  have hstep : ∀ vs (p : SiPt R S n), (siStep K inner m vs p).err = .success := by
    intro vs p
    unfold siStep
    cases inner with
    | pi => simp [siImage]
    | ii => exact absurd rfl hi
    | other => simp [siImage]
  have hit : ∀ vs (p : SiPt R S n) k, p.err = .success → ((siStep K inner m vs)^[k] p).err = .success := by
    intro vs p k hp
    cases k with
    | zero => exact hp
    | succ k => rw [Function.iterate_succ_apply']; exact hstep _ _
  have hall : ∀ j, ∀ p ∈ siEnds K lt inner o m q j, p.err = .success := by
    intro j
    induction j with
    | zero => simp [siEnds]
    | succ j ih =>
      intro p hp
      unfold siEnds at hp
      simp only [List.mem_append, List.mem_singleton] at hp
      rcases hp with hp | hp
      · exact ih p hp
      · rw [hp]
        refine hit _ _ _ ?_
        cases hl : (siEnds K lt inner o m q j).getLast? with
        | none => exact hq
        | some p => exact ih p (List.mem_of_getLast? hl)
  unfold siErr siPrecon
  rw [if_neg hi]
  simp only [ne_eq, not_true_eq_false, if_false]
  refine hall (j + 1) _ ?_
  rw [siEnds_eq, List.mem_map]
  exact ⟨j, by simp, rfl⟩

/-- **`lis_esi` with power iteration** in real arithmetic. It always returns `LIS_SUCCESS` and restores `A`. Every mode `j`
reports an iteration count `k ≤ emaxiter`, a residual below the tolerance if `k < emaxiter`, and an eigenvalue `l` such that for
some vector `u` with `1 - resid ≤ ‖u‖ ≤ 1` (the iterate before the one returned): `‖A u - l u‖ = resid |l - sigma|`, and the vector
returned is `(A - sigma)u` normalized. For a symmetric `A` there is an eigenvalue `mu` with
`(1 - resid) |mu - l| ≤ resid |l - sigma|`. -/
theorem lisEsi_pi_exact (hK : K.Exact mat fun _ => 1)
    (perr : ℕ → Err) (ss : ℕ) (hss : 1 ≤ ss) (jt jr : ℝ) (o : EOpts ℝ ℝ) (s : ESt ℝ ℝ M n)
    (hsz : o.maxiter < s.hist.size) (h0 : o.ishift = 0) :
    Ok ((lisEsi ltR .pi perr ss jt jr o).run K s) fun r => r.1.ret = .success ∧
      mat false r.2.m = mat false s.m ∧ r.2.h eV = r.2.h (ss + 5) ∧ r.1.modes.length = ss ∧
      ∀ j, j < ss → ∃ k resid l, r.1.modes[j]? = some (some (k, resid, l)) ∧ k ≤ o.maxiter ∧
        (k < o.maxiter → resid < o.tol) ∧
        (1 ≤ k → l ≠ o.sigma → nrm (r.2.h (ss + 5 + j)) = 1 ∧
          (∃ u, nrm u ≤ 1 ∧ 1 - resid ≤ nrm u ∧ nrm (mat false s.m *ᵥ u - l • u) = resid * |l - o.sigma| ∧
            nrm (mat false s.m *ᵥ u - o.sigma • u) • r.2.h (ss + 5 + j) = mat false s.m *ᵥ u - o.sigma • u) ∧
          ((mat false s.m).IsSymm → ∃ (mu : ℝ) (w : Fin n → ℝ), w ≠ 0 ∧ mat false s.m *ᵥ w = mu • w ∧
            (1 - resid) * |mu - l| ≤ resid * |l - o.sigma|)) := by
  refine (lisEsi_spec K ltR .pi perr ss hss jt jr o s hsz h0).mono ?_
  rintro r ⟨h1, -⟩
  obtain ⟨m, hm⟩ : ∃ m, m = shiftIf K o o.sigma s.m := ⟨_, rfl⟩
  obtain ⟨q, hq⟩ : ∃ q : SiPt ℝ ℝ n, q = siStart K jt jr := ⟨_, rfl⟩
  rw [← hm, ← hq] at h1
  have hall : ∀ j, j < ss → siErr K ltR .pi perr o m q j = .success :=
    fun j _ => siErr_pi K ltR .pi (by decide) perr o m q (by rw [hq]; rfl) j
  obtain ⟨a1, a2, a3, a4⟩ := h1 hall
  refine ⟨by rw [a1], by rw [a2]; exact (restored hK hm).1, by rw [a4, ← a3 0 hss], by rw [a1]; simp, fun j hj => ?_⟩
  refine ⟨_, _, _, by rw [a1]; simp only [List.getElem?_map, List.getElem?_range hj]; rfl, ?_⟩
  obtain ⟨b0, b1, -, b3⟩ := siIter_spec K ltR .pi o m q j
  have herr : (siMode' K ltR .pi o m q j).err = .success := by
    have := hall j hj
    unfold siErr at this
    split at this
    · rename_i hc; exact absurd this hc
    · exact this
  refine ⟨b1, fun hk => ?_, fun hk hl => ?_⟩
  · obtain ⟨-, h | h⟩ := b3 hk
    · rw [b0] at h; exact absurd herr h
    · rw [b0] at h; exact ltR_tol.1 h
  · rw [a3 j hj]
    obtain ⟨p, p1, p2, p3⟩ := siMode_last hK ltR .pi o m q (hq ▸ siStart_unit hK jt jr) j hk
    generalize (siEnds K ltR .pi o m q j).map SiPt.v = vs at p1 p3
    generalize siMode' K ltR .pi o m q j = P at *
    obtain ⟨u, hu⟩ : ∃ u, u = orthAll K.base vs p.v := ⟨_, rfl⟩
    rw [← hu] at p3
    unfold siStep at p1
    simp only [siImage, ← hu, ne_eq, not_true_eq_false, if_false] at p1
    obtain ⟨y, hy⟩ : ∃ y, y = K.mv false m u := ⟨_, rfl⟩
    rw [← hy] at p1
    have hy' : y = mat false s.m *ᵥ u - o.sigma • u := by
      rw [hy, hK.mv, shifted_mulVec hK hm]; simp
    have t1 : P.theta = u ⬝ᵥ y := by rw [p1]; exact hK.dot _ _
    have t2 : P.resid = nrm (y - (u ⬝ᵥ y) • u) / |u ⬝ᵥ y| := by rw [p1]; simp only; rw [hK.relRes, hK.dot]
    have t3 : P.v = (1 / nrm y) • y := by rw [p1]; exact hK.unit y
    have hq0 : P.theta ≠ 0 := fun h => hl (by simp [h])
    have hta : 0 < |P.theta| := abs_pos.2 hq0
    have hy0 : y ≠ 0 := by rintro h; apply hq0; rw [t1, h]; simp
    have hu0 : u ≠ 0 := by rintro h; apply hq0; rw [t1, h]; simp
    have hyn : nrm y ≠ 0 := fun h => hy0 (nrm_eq_zero.1 h)
    rw [← t1] at t2
    have hr0 : 0 ≤ P.resid := by rw [t2]; exact div_nonneg (nrm_nonneg _) (abs_nonneg _)
    have hres : nrm (y - P.theta • u) = P.resid * |P.theta| := by rw [t2, div_mul_cancel₀ _ hta.ne']
    have hd : mat false s.m *ᵥ u - (P.theta + o.sigma) • u = y - P.theta • u := by
      rw [hy', add_smul]; abel
    have hbig : 1 - P.resid ≤ nrm u := by
      -- ⟨u, y - theta u⟩ = theta (1 - ‖u‖²)
      have e : u ⬝ᵥ (y - P.theta • u) = P.theta * (1 - nrm u * nrm u) := by
        rw [dotProduct_sub, dotProduct_smul, ← t1, nrm_sq, smul_eq_mul]; ring
      have h1 := abs_dot_le u (y - P.theta • u)
      rw [e, hres, abs_mul] at h1
      have h2 : |1 - nrm u * nrm u| ≤ nrm u * P.resid := by
        have : |P.theta| * |1 - nrm u * nrm u| ≤ |P.theta| * (nrm u * P.resid) := by linarith
        exact le_of_mul_le_mul_left this hta
      have h3 := le_abs_self (1 - nrm u * nrm u)
      have h4 : nrm u * P.resid ≤ P.resid := mul_le_of_le_one_left hr0 p3
      have h5 : nrm u * nrm u ≤ nrm u := mul_le_of_le_one_left (nrm_nonneg u) p3
      linarith
    have hfin : nrm (mat false s.m *ᵥ u - (P.theta + o.sigma) • u) = P.resid * |P.theta + o.sigma - o.sigma| := by
      rw [hd, add_sub_cancel_right]; exact hres
    rw [t3]
    refine ⟨nrm_unit hy0, ⟨u, p3, hbig, hfin, ?_⟩, fun hA => ?_⟩
    · rw [← hy', smul_smul, mul_one_div_cancel hyn, one_smul]
    · obtain ⟨mu, w, w1, w2, w3⟩ := symm_eigenvalue_near hA u hu0 (P.theta + o.sigma)
      refine ⟨mu, w, w1, w2, ?_⟩
      rw [hfin] at w3
      refine le_trans ?_ w3
      rw [mul_comm]
      exact mul_le_mul_of_nonneg_left hbig (abs_nonneg _)

/-- **Finding.** Every mode starts with the vector the mode before it ended with. In real arithmetic that vector orthogonalized
against itself is zero, so the first iteration of the second mode computes `theta = 0` and divides by it: only rounding errors
give the second mode a direction. -/
theorem siMode_second_degenerate (hK : K.Exact mat fun _ => 1) (lt : ℝ → ℝ → Bool) (inner : SiInner) (o : EOpts ℝ ℝ) (m : M)
    (q : SiPt ℝ ℝ n) (h : nrm (siMode' K lt inner o m q 0).v = 1) :
    let first := siStep K inner m [(siMode' K lt inner o m q 0).v] (siMode' K lt inner o m q 0)
    first.u = 0 ∧ (first.err = .success → first.theta = 0) := by
  have hu : orthAll K.base [(siMode' K lt inner o m q 0).v] (siMode' K lt inner o m q 0).v = 0 := by
    have hww : (siMode' K lt inner o m q 0).v ⬝ᵥ (siMode' K lt inner o m q 0).v = 1 := by rw [← nrm_sq, h]; simp
    unfold orthAll
    simp only [List.foldl_cons, List.foldl_nil]
    rw [hK.dot, hww]
    funext i
    simp [axpyV]
  unfold siStep
  simp only [hu]
  split
  · rename_i hc
    exact ⟨rfl, fun h => absurd h hc⟩
  · refine ⟨rfl, fun _ => ?_⟩
    simp only
    rw [hK.dot]; simp

/-- the second mode does begin with that iteration -/
theorem siEnds_two (lt : ℝ → ℝ → Bool) (inner : SiInner) (o : EOpts ℝ ℝ) (m : M) (q : SiPt ℝ ℝ n) :
    siMode' K lt inner o m q 1 =
      (siStep K inner m [(siMode' K lt inner o m q 0).v])^[siIter K lt inner o m q 1] (siMode' K lt inner o m q 0) := rfl

/-- **Finding.** With any inner eigensolver other than power and inverse iteration (`-ie rqi`, `cg`, `cr`, `jd` are accepted)
`lis_esi` does nothing, for every matrix and in any arithmetic: it returns `LIS_SUCCESS` and never sets an eigenvalue. -/
theorem lisEsi_other {R S : Type} [Zero R] [One R] [Add R] [Neg R] [Sub R] [Mul R] [Div R] [Star R] [DecidableEq R] [RealOps S]
    [EigOps R S] (K : EKit R S M n) (lt : S → S → Bool) (perr : ℕ → Err) (ss : ℕ) (hss : 1 ≤ ss) (jt : R) (jr : S)
    (o : EOpts R S) (s : ESt R S M n) (hsz : o.maxiter < s.hist.size) (h0 : o.ishift = 0) :
    Ok ((lisEsi lt .other perr ss jt jr o).run K s) fun r => r.1 = ⟨.success, List.replicate ss none⟩ := by
  refine (lisEsi_spec K lt .other perr ss hss jt jr o s hsz h0).mono ?_
  rintro r ⟨h1, -⟩
  rw [(h1 fun j _ => siErr_pi K lt .other (by decide) perr o _ _ rfl j).1]
  congr 1
  rw [List.eq_replicate_iff]
  refine ⟨by simp, fun b hb => ?_⟩
  rw [List.mem_map] at hb
  obtain ⟨j, -, rfl⟩ := hb
  rfl

/-- and in real arithmetic the vector it returns is the constant vector `(1,…,1)` normalized, whatever the matrix -/
theorem lisEsi_other_vector (hK : K.Exact mat fun _ => 1) (hn : 0 < n) (perr : ℕ → Err) (ss : ℕ) (hss : 1 ≤ ss) (jt jr : ℝ)
    (o : EOpts ℝ ℝ) (s : ESt ℝ ℝ M n) (hsz : o.maxiter < s.hist.size) (h0 : o.ishift = 0) :
    Ok ((lisEsi ltR .other perr ss jt jr o).run K s) fun r =>
      r.2.h eV = (1 / nrm fun _ : Fin n => (1 : ℝ)) • fun _ => 1 := by
  refine (lisEsi_spec K ltR .other perr ss hss jt jr o s hsz h0).mono ?_
  rintro r ⟨h1, -⟩
  rw [(h1 fun j _ => siErr_pi K ltR .other (by decide) perr o _ _ rfl j).2.2.2]
  have hne : (fun _ : Fin n => (1 : ℝ)) ≠ 0 := fun h => one_ne_zero (congrFun h ⟨0, hn⟩)
  have hs : (siStart K jt jr).v = (1 / nrm fun _ : Fin n => (1 : ℝ)) • fun _ => 1 := hK.unit _
  have hit : ∀ k, ((siStep K .other (shiftIf K o o.sigma s.m) [])^[k] (siStart K jt jr)).v = (siStart K jt jr).v := by
    intro k
    induction k with
    | zero => rfl
    | succ k ih =>
      rw [Function.iterate_succ_apply']
      generalize (siStep K .other (shiftIf K o o.sigma s.m) [])^[k] (siStart K jt jr) = p at ih
      unfold siStep
      simp only [siImage, ne_eq, not_true_eq_false, if_false]
      rw [ih, hK.unit, hs, nrm_unit hne]
      simp
  rw [← hs]
  exact hit _

/-! ### concrete cases -/

/-- a linear solver that meets the hypothesis of `lisEsi_ii_exact` with `delta = 0`: the inverse if there is one, else an error -/
noncomputable def demoInverse (A : Matrix (Fin 2) (Fin 2) ℝ) (v : Fin 2 → ℝ) : Err × (Fin 2 → ℝ) :=
  open Classical in if IsUnit A.det then (.success, A⁻¹ *ᵥ v) else (.breakdown, v)

example : ∀ (m : Matrix (Fin 2) (Fin 2) ℝ) v y0 y, (demoEKit demoInverse).lin false m v y0 = (.success, y) →
    nrm (v - m *ᵥ y) ≤ 0 * nrm v := by
  intro m v y0 y h
  simp only [demoEKit, demoInverse] at h
  split at h
  · rename_i hu
    simp only [Prod.mk.injEq, true_and] at h
    rw [← h, mulVec_mulVec, Matrix.mul_nonsing_inv _ hu]
    simp [nrm]
  · simp at h

/-- for `A = 3 I` the first iteration of power iteration finds eigenvalue 3 with residual 0, so mode 0 ends after one iteration
with a pair to which the theorems apply (`l = 3 ≠ 0 = sigma`) -/
example (jt jr : ℝ) : let K := demoEKit demoInverse
    let m : Matrix (Fin 2) (Fin 2) ℝ := (3 : ℝ) • 1
    let o : EOpts ℝ ℝ := ⟨5, true, true, 1 / 10, 0, 0⟩
    siRes K ltR .pi o m (siStart K jt jr) 0 = some (1, 0, 3) := by
  intro K m o
  have hK : K.Exact (fun _ A => A) fun _ => 1 := demoEKit_exact _
  have hv : nrm (siStart K jt jr).v = 1 := by
    have : (siStart K jt jr).v = (1 / nrm fun _ : Fin 2 => (1 : ℝ)) • fun _ => 1 := hK.unit _
    rw [this]
    exact nrm_unit fun h => one_ne_zero (congrFun h 0)
  have hvv : (siStart K jt jr).v ⬝ᵥ (siStart K jt jr).v = 1 := by rw [← nrm_sq, hv]; simp
  have himg : K.mv false m (siStart K jt jr).v = (3 : ℝ) • (siStart K jt jr).v := by
    rw [hK.mv]; simp [m, Matrix.smul_mulVec]
  have h1 : (siStep K .pi m [] (siStart K jt jr)).theta = 3 ∧ (siStep K .pi m [] (siStart K jt jr)).resid = 0 ∧
      (siStep K .pi m [] (siStart K jt jr)).err = .success := by
    unfold siStep
    simp only [siImage, orthAll, List.foldl_nil, ne_eq, not_true_eq_false, if_false, himg]
    rw [hK.dot, dotProduct_smul, hvv, hK.relRes]
    simp [nrm]
  have hk : siIter K ltR .pi o m (siStart K jt jr) 0 = 1 := by
    change iters (fun i => siStop ltR o ((siStep K .pi m [])^[i] (siStart K jt jr))) (4 + 1) 0 = 1
    unfold iters
    refine if_pos ?_
    simp only [Nat.zero_add, Function.iterate_one]
    change siStop ltR o (siStep K .pi m [] (siStart K jt jr)) = true
    unfold siStop
    rw [h1.2.1, h1.2.2]
    simp only [ne_eq, not_true_eq_false, decide_false, Bool.false_or]
    exact ltR_tol.2 (by norm_num [o])
  have hm : siMode' K ltR .pi o m (siStart K jt jr) 0 = siStep K .pi m [] (siStart K jt jr) := by
    change (siStep K .pi m [])^[siIter K ltR .pi o m (siStart K jt jr) 0] (siStart K jt jr) = _
    rw [hk]; rfl
  unfold siRes
  rw [hk, hm, h1.1, h1.2.1]
  simp [siValue, EOpts.sigma, o]

end Lis
