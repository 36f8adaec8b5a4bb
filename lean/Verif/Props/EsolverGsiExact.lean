import Verif.Props.EsolverGsi
import Verif.Props.EsolverSiExact

/-!
# C64 in real arithmetic: what the results of generalized subspace iteration say about the pencil

`A = mat false s.m`, `B = mat true s.m` are the matrices the caller gave. Division by zero (where the floating-point program
computes NaN) is excluded by the condition `l ≠ sigma` on the eigenvalue reported.
-/

namespace Lis
open Matrix
variable {M : Type} {n : ℕ} {K : EKit ℝ ℝ M n} {mat : Bool → M → Matrix (Fin n) (Fin n) ℝ}
  {C : M → Matrix (Fin n) (Fin n) ℝ}

theorem unit_unitOrZero' (hK : K.Exact mat C) (v : Fin n → ℝ) : UnitOrZero (unit K.base v) := by
  rw [hK.unit]
  by_cases h : v = 0
  · left; rw [h]; simp
  · right; exact nrm_unit h

theorem sgIterate_unit (hK : K.Exact mat C) (inner : SgInner) (m : M) (vs : List (Fin n → ℝ)) (q : SgPt ℝ ℝ n)
    (h : UnitOrZero q.v) (k : ℕ) : UnitOrZero ((sgStep K inner m vs)^[k] q).v := by
  induction k with
  | zero => exact h
  | succ k ih =>
    rw [Function.iterate_succ_apply']
    generalize (sgStep K inner m vs)^[k] q = p at ih
    unfold sgStep
    simp only
    split
    · exact ih
    · exact unit_unitOrZero' hK _

theorem sgEnds_unit (hK : K.Exact mat C) (lt : ℝ → ℝ → Bool) (inner : SgInner) (o : EOpts ℝ ℝ) (m : M)
    (q : SgPt ℝ ℝ n) (h : UnitOrZero q.v) (j : ℕ) : ∀ p ∈ sgEnds K lt inner o m q j, UnitOrZero p.v := by
  induction j with
  | zero => simp [sgEnds]
  | succ j ih =>
    intro p hp
    unfold sgEnds at hp
    simp only [List.mem_append, List.mem_singleton] at hp
    rcases hp with hp | hp
    · exact ih p hp
    · rw [hp]
      refine sgIterate_unit hK inner m _ _ ?_ _
      cases hl : (sgEnds K lt inner o m q j).getLast? with
      | none => exact h
      | some p => exact ih p (List.mem_of_getLast? hl)

/-- the vector just orthogonalized is orthogonal to the last one it was orthogonalized against -/
theorem orthAll_last (hK : K.Exact mat C) (vs : List (Fin n → ℝ)) (w v : Fin n → ℝ) (hw : UnitOrZero w) :
    orthAll K.base (vs ++ [w]) v ⬝ᵥ w = 0 := by
  rw [orthAll_snoc, hK.dot]
  generalize orthAll K.base vs v = x
  have e : axpyV (-(x ⬝ᵥ w)) w x = x - (x ⬝ᵥ w) • w := by
    funext i; simp [axpyV]; ring
  rw [e, sub_dotProduct, smul_dotProduct]
  rcases hw with h | h
  · rw [h]; simp
  · have hww : w ⬝ᵥ w = 1 := by rw [← nrm_sq, h]; simp
    rw [hww]; simp

/-- the last iteration of mode `j` -/
theorem sgMode_last (hK : K.Exact mat C) (lt : ℝ → ℝ → Bool) (inner : SgInner) (o : EOpts ℝ ℝ) (m : M)
    (q : SgPt ℝ ℝ n) (h : UnitOrZero q.v) (j : ℕ) (hk : 1 ≤ sgIter K lt inner o m q j) :
    ∃ (p : SgPt ℝ ℝ n) (vs : List (Fin n → ℝ)), sgMode' K lt inner o m q j = sgStep K inner m vs p ∧
      (0 < j → orthAll K.base vs p.v ⬝ᵥ (sgMode' K lt inner o m q (j - 1)).v = 0) := by
  obtain ⟨k, hk'⟩ : ∃ k, sgIter K lt inner o m q j = k + 1 := ⟨_, (Nat.sub_add_cancel hk).symm⟩
  refine ⟨(sgStep K inner m ((sgEnds K lt inner o m q j).map SgPt.v))^[k] ((sgEnds K lt inner o m q j).getLast?.getD q),
    (sgEnds K lt inner o m q j).map SgPt.v, ?_, fun hj => ?_⟩
  · rw [← Function.iterate_succ_apply' (sgStep K inner m _), Nat.succ_eq_add_one, ← hk']; rfl
  · obtain ⟨i, rfl⟩ : ∃ i, j = i + 1 := ⟨j - 1, by omega⟩
    have e : sgEnds K lt inner o m q (i + 1) = sgEnds K lt inner o m q i ++ [sgMode' K lt inner o m q i] := rfl
    rw [Nat.add_sub_cancel]
    have hu := sgEnds_unit hK lt inner o m q h (i + 1) (sgMode' K lt inner o m q i) (by rw [e]; simp)
    generalize (sgStep K inner m _)^[k] _ = p
    rw [e, List.map_append]
    exact orthAll_last hK _ _ _ hu

theorem sgStart_unit (hK : K.Exact mat C) (jt jr : ℝ) (w : Fin n → ℝ) : UnitOrZero (sgStart K jt jr w).v := unit_unitOrZero' hK _

/-- the parts common to both inner eigensolvers -/
theorem lisEgsi_common (hK : K.Exact mat (mat true)) (inner : SgInner)
    (perrA perrB : ℕ → Err) (ss : ℕ) (hss : 1 ≤ ss) (jt jr : ℝ) (o : EOpts ℝ ℝ) (s : ESt ℝ ℝ M n)
    (hsz : o.maxiter < s.hist.size) (h0 : o.ishift = 0) :
    Ok ((lisEgsi ltR inner perrA perrB ss jt jr o).run K s) fun r => r.1.ret = .success →
      mat false r.2.m = mat false s.m ∧ mat true r.2.m = mat true s.m ∧ r.2.h eV = r.2.h (ss + 5) ∧ r.1.modes.length = ss ∧
      ∀ j, j < ss → ∃ (k : ℕ) (P : SgPt ℝ ℝ n), r.1.modes[j]? = some (sgValue inner o k P.theta P.resid) ∧ k ≤ o.maxiter ∧
        (k < o.maxiter → P.resid < o.tol) ∧ r.2.h (ss + 5 + j) = P.v ∧ P.err = .success ∧
        (1 ≤ k → ∃ p vs, P = sgStep K inner (shiftIf K o o.sigma s.m) vs p ∧
          (0 < j → orthAll K.base vs p.v ⬝ᵥ r.2.h (ss + 5 + (j - 1)) = 0)) := by
  refine (lisEgsi_spec K ltR inner perrA perrB ss hss jt jr o s hsz h0).mono ?_
  rintro r ⟨h1, h2, -⟩ hs
  obtain ⟨m, hm⟩ : ∃ m, m = shiftIf K o o.sigma s.m := ⟨_, rfl⟩
  obtain ⟨q, hq⟩ : ∃ q : SgPt ℝ ℝ n, q = sgStart K jt jr (s.h 2) := ⟨_, rfl⟩
  rw [← hm, ← hq] at h1 h2
  have hall : ∀ j, j < ss → sgErr K ltR inner perrA perrB o m q j = .success := by
    by_contra hc
    classical
    push Not at hc
    have := h2 (Nat.find hc) (Nat.find_spec hc).1 (Nat.find_spec hc).2 (fun l hl => by
      by_contra hc'
      exact Nat.find_min hc hl ⟨hl.trans (Nat.find_spec hc).1, hc'⟩)
    rw [this.1] at hs
    exact (Nat.find_spec hc).2 hs
  obtain ⟨a1, a2, a3, a4⟩ := h1 hall
  have hu : UnitOrZero q.v := hq ▸ sgStart_unit hK jt jr (s.h 2)
  refine ⟨by rw [a2]; exact (restored hK hm).1, by rw [a2]; exact (restored hK hm).2, by rw [a4, ← a3 0 hss],
    by rw [a1]; simp, fun j hj => ?_⟩
  refine ⟨sgIter K ltR inner o m q j, sgMode' K ltR inner o m q j,
    by rw [a1]; simp only [List.getElem?_map, List.getElem?_range hj]; rfl, ?_⟩
  obtain ⟨b0, b1, -, b3⟩ := sgIter_spec K ltR inner o m q j
  have herr : (sgMode' K ltR inner o m q j).err = .success := by
    have := hall j hj
    unfold sgErr at this
    split at this
    · rename_i hc; exact absurd this hc
    · exact this
  refine ⟨b1, fun hk => ?_, a3 j hj, herr, fun hk => ?_⟩
  · obtain ⟨-, h | h⟩ := b3 hk
    · rw [b0] at h; exact absurd herr h
    · rw [b0] at h; exact ltR_tol.1 h
  · obtain ⟨p, vs, p1, p2⟩ := sgMode_last hK ltR inner o m q hu j hk
    rw [← hm]
    exact ⟨p, vs, p1, fun hj0 => by rw [a3 (j - 1) (by omega)]; exact p2 hj0⟩

/-- the arithmetic of one iteration: `T` the matrix multiplied with, `v` the scaled vector, `y` what the linear solver gave -/
theorem sg_scaled (hK : K.Exact mat C) (b : Bool) (T : Matrix (Fin n) (Fin n) ℝ) (m : M) (u y : Fin n → ℝ)
    (hT : ∀ x, K.mv b m x = T *ᵥ x)
    (hth : K.base.dot (smulV (sgFactor K b m u) (K.mv b m u)) y ≠ 0) :
    let v := smulV (sgFactor K b m u) u
    v ⬝ᵥ T *ᵥ v = 1 ∧ smulV (sgFactor K b m u) (K.mv b m u) = T *ᵥ v ∧ y ≠ 0 ∧ ∀ x, u ⬝ᵥ x = 0 → v ⬝ᵥ x = 0 := by
  intro v
  have hw : smulV (sgFactor K b m u) (K.mv b m u) = T *ᵥ v := by
    simp only [v, smulV_eq, hT, Matrix.mulVec_smul]
  have hf : sgFactor K b m u = 1 / Real.sqrt (u ⬝ᵥ T *ᵥ u) := by
    unfold sgFactor; rw [hK.dot, hT]; rfl
  rw [hK.dot, hw] at hth
  have hv : v = (1 / Real.sqrt (u ⬝ᵥ T *ᵥ u)) • u := by simp only [v, smulV_eq, hf]
  have hy0 : y ≠ 0 := by rintro rfl; simp at hth
  have he : Real.sqrt (u ⬝ᵥ T *ᵥ u) ≠ 0 := by
    intro h
    rw [hv, h] at hth
    simp at hth
  have hee : Real.sqrt (u ⬝ᵥ T *ᵥ u) * Real.sqrt (u ⬝ᵥ T *ᵥ u) = u ⬝ᵥ T *ᵥ u := by
    apply Real.mul_self_sqrt
    by_contra hneg
    exact he (Real.sqrt_eq_zero_of_nonpos (by linarith))
  refine ⟨?_, hw, hy0, fun x hx => ?_⟩
  · rw [hv, Matrix.mulVec_smul, smul_dotProduct, dotProduct_smul]
    generalize Real.sqrt (u ⬝ᵥ T *ᵥ u) = e at he hee
    rw [← hee]
    simp only [smul_eq_mul]
    field_simp
  · rw [hv, smul_dotProduct, hx]; simp

/-- **`lis_egsi` with power iteration** (`-ige gpi`) in real arithmetic with an exact linear solver. Unless an error is returned,
`A` and `B` are as before, and every mode `j` reports an iteration count `k ≤ emaxiter`, a residual below the tolerance if
`k < emaxiter`, and an eigenvalue `l` such that for some `v` with `⟨v, (A - sigma B) v⟩ = 1` and `y` with `B y = (A - sigma B) v`:
`‖y - (l - sigma) v‖ = resid |l - sigma|`, and the vector returned is `y` normalized. When the residual is 0, `A v = l B v`.
**Finding:** `v` is orthogonal, in the plain inner product and not that of `B`, to the vector of the mode before. -/
theorem lisEgsi_gpi_exact (hK : K.Exact mat (mat true))
    (hlin : ∀ m v y0 y, K.lin true m v y0 = (.success, y) → mat true m *ᵥ y = v)
    (perrA perrB : ℕ → Err) (ss : ℕ) (hss : 1 ≤ ss) (jt jr : ℝ) (o : EOpts ℝ ℝ) (s : ESt ℝ ℝ M n)
    (hsz : o.maxiter < s.hist.size) (h0 : o.ishift = 0) :
    Ok ((lisEgsi ltR .gpi perrA perrB ss jt jr o).run K s) fun r => r.1.ret = .success →
      mat false r.2.m = mat false s.m ∧ mat true r.2.m = mat true s.m ∧ r.2.h eV = r.2.h (ss + 5) ∧ r.1.modes.length = ss ∧
      ∀ j, j < ss → ∃ k resid l, r.1.modes[j]? = some (some (k, resid, l)) ∧ k ≤ o.maxiter ∧
        (k < o.maxiter → resid < o.tol) ∧
        (1 ≤ k → l ≠ o.sigma → nrm (r.2.h (ss + 5 + j)) = 1 ∧ ∃ v y,
          v ⬝ᵥ ((mat false s.m - o.sigma • mat true s.m) *ᵥ v) = 1 ∧
          mat true s.m *ᵥ y = (mat false s.m - o.sigma • mat true s.m) *ᵥ v ∧
          nrm (y - (l - o.sigma) • v) = resid * |l - o.sigma| ∧ nrm y • r.2.h (ss + 5 + j) = y ∧
          (resid = 0 → mat false s.m *ᵥ v = l • (mat true s.m *ᵥ v)) ∧
          (0 < j → v ⬝ᵥ r.2.h (ss + 5 + (j - 1)) = 0)) := by
  refine (lisEgsi_common hK .gpi perrA perrB ss hss jt jr o s hsz h0).mono ?_
  rintro r h hs
  obtain ⟨a1, a2, a3, a4, h⟩ := h hs
  refine ⟨a1, a2, a3, a4, fun j hj => ?_⟩
  obtain ⟨k, P, b1, b2, b3, b4, b5, b6⟩ := h j hj
  refine ⟨k, P.resid, _, b1, b2, b3, fun hk hl => ?_⟩
  obtain ⟨p, vs, c1, c2⟩ := b6 hk
  obtain ⟨m, hm⟩ : ∃ m, m = shiftIf K o o.sigma s.m := ⟨_, rfl⟩
  rw [← hm] at c1
  have hA : mat false m = mat false s.m - o.sigma • mat true s.m := by rw [hm, hK.shiftIf o _ (fun h => h)]
  have hB : mat true m = mat true s.m := by rw [hm, hK.shiftIfC o _ _]
  have hq : P.theta ≠ 0 := fun h => hl (by rw [h]; simp)
  rw [b4]
  unfold sgStep at c1
  simp only at c1
  obtain ⟨u, hu⟩ : ∃ u, u = orthAll K.base vs p.v := ⟨_, rfl⟩
  rw [← hu] at c1 c2
  obtain ⟨w, hw⟩ : ∃ w, w = smulV (sgFactor K false m u) (K.mv false m u) := ⟨_, rfl⟩
  split at c1
  · rename_i hc
    rw [c1] at b5
    exact absurd b5 hc
  · rename_i hc
    simp only [sgImage] at hc c1
    rw [← hw] at hc c1
    rw [not_not] at hc
    obtain ⟨y, hy⟩ : ∃ y, y = (K.lin true m w p.v).2 := ⟨_, rfl⟩
    have hy' := hlin _ _ _ y (show K.lin true m w p.v = (.success, y) by rw [← hc, hy])
    rw [← hy] at c1
    have t1 : P.theta = K.base.dot w y := by rw [c1]
    have t2 : P.resid = relRes K.base P.theta (smulV (sgFactor K false m u) u) y := by rw [t1, c1]
    have t3 : P.v = (1 / nrm y) • y := by rw [c1]; exact hK.unit y
    obtain ⟨g1, g2, g3, g4⟩ := sg_scaled hK false (mat false m) m u y (fun x => hK.mv m x) (by rw [← hw, ← t1]; exact hq)
    rw [hK.relRes] at t2
    have hyn : nrm y ≠ 0 := fun h => g3 (nrm_eq_zero.1 h)
    rw [← hw] at g2
    rw [g2, hA, hB] at hy'
    rw [hA] at g1
    have hta : |P.theta| ≠ 0 := abs_ne_zero.2 hq
    have hres : nrm (y - P.theta • smulV (sgFactor K false m u) u) = P.resid * |P.theta| := by
      rw [t2, div_mul_cancel₀ _ hta]
    refine ⟨by rw [t3]; exact nrm_unit g3, smulV (sgFactor K false m u) u, y, g1, hy', ?_, ?_, fun hr => ?_, fun hj0 => ?_⟩
    · rw [add_sub_cancel_right]; exact hres
    · rw [t3, smul_smul, mul_one_div_cancel hyn, one_smul]
    · rw [hr, zero_mul] at hres
      have e := sub_eq_zero.1 (nrm_eq_zero.1 hres)
      rw [e, Matrix.mulVec_smul, Matrix.sub_mulVec, Matrix.smul_mulVec] at hy'
      rw [add_smul, hy', sub_add_cancel]
    · exact g4 _ (c2 hj0)

/-- **`lis_egsi` with inverse iteration** (the default) in real arithmetic with an exact linear solver, likewise:
`⟨v, B v⟩ = 1`, `(A - sigma B) y = B v`, `‖(l - sigma) y - v‖ = resid`. -/
theorem lisEgsi_gii_exact (hK : K.Exact mat (mat true))
    (hmv : ∀ m x, K.mv true m x = mat true m *ᵥ x)
    (hlin : ∀ m v y0 y, K.lin false m v y0 = (.success, y) → mat false m *ᵥ y = v)
    (perrA perrB : ℕ → Err) (ss : ℕ) (hss : 1 ≤ ss) (jt jr : ℝ) (o : EOpts ℝ ℝ) (s : ESt ℝ ℝ M n)
    (hsz : o.maxiter < s.hist.size) (h0 : o.ishift = 0) :
    Ok ((lisEgsi ltR .gii perrA perrB ss jt jr o).run K s) fun r => r.1.ret = .success →
      mat false r.2.m = mat false s.m ∧ mat true r.2.m = mat true s.m ∧ r.2.h eV = r.2.h (ss + 5) ∧ r.1.modes.length = ss ∧
      ∀ j, j < ss → ∃ k resid l, r.1.modes[j]? = some (some (k, resid, l)) ∧ k ≤ o.maxiter ∧
        (k < o.maxiter → resid < o.tol) ∧
        (1 ≤ k → l ≠ o.sigma → nrm (r.2.h (ss + 5 + j)) = 1 ∧ ∃ v y,
          v ⬝ᵥ (mat true s.m *ᵥ v) = 1 ∧
          (mat false s.m - o.sigma • mat true s.m) *ᵥ y = mat true s.m *ᵥ v ∧
          nrm ((l - o.sigma) • y - v) = resid ∧ nrm y • r.2.h (ss + 5 + j) = y ∧
          mat false s.m *ᵥ y - l • (mat true s.m *ᵥ y) = mat true s.m *ᵥ (v - (l - o.sigma) • y) ∧
          (resid = 0 → mat false s.m *ᵥ v = l • (mat true s.m *ᵥ v)) ∧
          (0 < j → v ⬝ᵥ r.2.h (ss + 5 + (j - 1)) = 0)) := by
  refine (lisEgsi_common hK .gii perrA perrB ss hss jt jr o s hsz h0).mono ?_
  rintro r h hs
  obtain ⟨a1, a2, a3, a4, h⟩ := h hs
  refine ⟨a1, a2, a3, a4, fun j hj => ?_⟩
  obtain ⟨k, P, b1, b2, b3, b4, b5, b6⟩ := h j hj
  refine ⟨k, P.resid, _, b1, b2, b3, fun hk hl => ?_⟩
  obtain ⟨p, vs, c1, c2⟩ := b6 hk
  obtain ⟨m, hm⟩ : ∃ m, m = shiftIf K o o.sigma s.m := ⟨_, rfl⟩
  rw [← hm] at c1
  have hA : mat false m = mat false s.m - o.sigma • mat true s.m := by rw [hm, hK.shiftIf o _ (fun h => h)]
  have hB : mat true m = mat true s.m := by rw [hm, hK.shiftIfC o _ _]
  have hq : P.theta ≠ 0 := fun h => hl (by rw [h]; simp)
  rw [b4]
  unfold sgStep at c1
  simp only at c1
  obtain ⟨u, hu⟩ : ∃ u, u = orthAll K.base vs p.v := ⟨_, rfl⟩
  rw [← hu] at c1 c2
  obtain ⟨w, hw⟩ : ∃ w, w = smulV (sgFactor K true m u) (K.mv true m u) := ⟨_, rfl⟩
  split at c1
  · rename_i hc
    rw [c1] at b5
    exact absurd b5 hc
  · rename_i hc
    simp only [sgImage] at hc c1
    rw [← hw] at hc c1
    rw [not_not] at hc
    obtain ⟨y, hy⟩ : ∃ y, y = (K.lin false m w p.v).2 := ⟨_, rfl⟩
    have hy' := hlin _ _ _ y (show K.lin false m w p.v = (.success, y) by rw [← hc, hy])
    rw [← hy] at c1
    have t1 : P.theta = K.base.dot w y := by rw [c1]
    have t2 : P.resid = relRes K.base P.theta (smulV (sgFactor K true m u) u) y := by rw [t1, c1]
    have t3 : P.v = (1 / nrm y) • y := by rw [c1]; exact hK.unit y
    obtain ⟨g1, g2, g3, g4⟩ := sg_scaled hK true (mat true m) m u y (fun x => hmv m x) (by rw [← hw, ← t1]; exact hq)
    rw [hK.relRes] at t2
    have hyn : nrm y ≠ 0 := fun h => g3 (nrm_eq_zero.1 h)
    rw [← hw] at g2
    rw [g2, hA, hB] at hy'
    rw [hB] at g1
    have hta : |P.theta| ≠ 0 := abs_ne_zero.2 hq
    obtain ⟨v, hv⟩ : ∃ v, v = smulV (sgFactor K true m u) u := ⟨_, rfl⟩
    rw [← hv] at g1 g2 g4 t2 hy'
    have hres : nrm ((1 / P.theta) • y - v) = P.resid := by
      have e : (1 / P.theta) • y - v = (1 / P.theta) • (y - P.theta • v) := by
        rw [smul_sub, smul_smul, one_div_mul_cancel hq, one_smul]
      rw [e, nrm_smul, t2, abs_div, abs_one, one_div_mul_eq_div]
    have hpair : mat false s.m *ᵥ y - (1 / P.theta + o.sigma) • (mat true s.m *ᵥ y) =
        mat true s.m *ᵥ (v - (1 / P.theta) • y) := by
      rw [Matrix.mulVec_sub, ← hy', Matrix.sub_mulVec, Matrix.smul_mulVec, Matrix.mulVec_smul, add_smul]
      abel
    refine ⟨by rw [t3]; exact nrm_unit g3, v, y, g1, hy', by rw [add_sub_cancel_right]; exact hres, ?_,
      by rw [add_sub_cancel_right]; exact hpair, fun hr => ?_, fun hj0 => g4 _ (c2 hj0)⟩
    · rw [t3, smul_smul, mul_one_div_cancel hyn, one_smul]
    · rw [hr] at hres
      have e := sub_eq_zero.1 (nrm_eq_zero.1 hres)
      have e' : y = P.theta • v := by rw [← e, smul_smul, mul_one_div_cancel hq, one_smul]
      rw [e, sub_self, Matrix.mulVec_zero, sub_eq_zero, e', Matrix.mulVec_smul, Matrix.mulVec_smul, smul_comm] at hpair
      exact smul_right_injective _ hq hpair

end Lis
