import Verif.Lemmas.Fp
import Mathlib.Algebra.Order.Archimedean.Basic

namespace Lis
variable {K : Type} [Field K] [LinearOrder K] [IsStrictOrderedRing K] [FloorRing K]
variable {p : ℕ} {emin : ℤ} {rnd : K → K}

theorem exists_scale {y : K} (hy : 0 < y) : ∃ k : ℤ, 2 ^ k < y ∧ y ≤ 2 ^ (k + 1) := by
  obtain ⟨n, h1, h2⟩ := exists_mem_Ioc_zpow hy (by norm_num : (1 : K) < 2)
  exact ⟨n, h1, h2⟩

/-- the error of a sum is at most each operand -/
theorem Nearest.err_le_right (N : Nearest p emin rnd) {a b : K} (fa : IsFloat p emin a) : |a + b - rnd (a + b)| ≤ |b| := by
  have := N.near (a + b) a fa
  rw [abs_sub_comm] at this
  rwa [show a - (a + b) = -b by ring, abs_neg] at this

/-- `s - a` and `a + b - s` are floating-point numbers if `a` is a multiple of the last place of `b` -/
theorem fastTwoSum_grid (N : Nearest p emin rnd) (hp : 2 ≤ p) {a b : K} {j : ℤ} (hj : emin ≤ j) (fa : IsFloat p emin a)
    (ga : OnGrid j a) (gb : OnGrid j b) (hb : |b| < 2 ^ (j + p)) :
    IsFloat p emin (rnd (a + b) - a) ∧ IsFloat p emin (a + b - rnd (a + b)) := by
  have hp1 : 1 ≤ p := by omega
  have gs : OnGrid j (rnd (a + b)) := N.grid hp1 hj (ga.add gb)
  refine ⟨?_, isFloat_of_grid hp1 hj ((ga.add gb).sub gs) ((N.err_le_right fa).trans hb.le)⟩
  rcases le_or_gt |a + b| (2 ^ (j + p)) with hA | hB
  · rw [N.exact (isFloat_of_grid hp1 hj (ga.add gb) hA)]
    exact isFloat_of_grid hp1 hj ((ga.add gb).sub ga) (by rw [add_sub_cancel_left]; exact hb.le)
  · obtain ⟨k', h1, h2⟩ := exists_scale (lt_trans (two_zpow_pos _) hB)
    obtain ⟨k, rfl⟩ : ∃ k : ℤ, k' = k + p - 1 := ⟨k' - p + 1, by omega⟩
    have hk : j + 1 ≤ k := by
      have : (2 : K) ^ (j + p) < 2 ^ (k + p - 1 + 1) := lt_of_lt_of_le hB h2
      have := of_two_zpow_lt this
      omega
    rw [show k + (p : ℤ) - 1 + 1 = k + p by ring] at h2
    have hd : |rnd (a + b) - (a + b)| ≤ 2 ^ (k - 1) := N.err hp1 (by omega) h2
    have gsk : OnGrid k (rnd (a + b)) :=
      (N.float _).grid (N.ge (isFloat_pow hp1 (by omega)) (two_zpow_pos _).le h1.le)
    have hsa : |rnd (a + b) - a| ≤ |b| + 2 ^ (k - 1) := by
      have : rnd (a + b) - a = (rnd (a + b) - (a + b)) + b := by ring
      rw [this]
      have := abs_add_le (rnd (a + b) - (a + b)) b
      linarith
    rcases (by omega : k = j + 1 ∨ j + 2 ≤ k) with rfl | hk2
    · refine isFloat_of_grid hp1 hj (gs.sub ga) (hsa.trans ?_)
      have := gb.lt_le (by omega) hb
      rw [show j + 1 - 1 = j by ring]
      linarith
    · have hba : 2 ^ (k + p - 2) ≤ |a| := by
        have e1 : (2 : K) ^ (k + p - 1) = 2 * 2 ^ (k + p - 2) := by rw [two_zpow_pred (k + p - 1)]; congr 2; ring
        have e2 : (2 : K) ^ (j + p) ≤ 2 ^ (k + p - 2) := two_zpow_le (by omega)
        have := abs_add_le a b
        linarith
      have gak : OnGrid (k - 1) a := fa.grid (by rw [show k - 1 + (p : ℤ) - 1 = k + p - 2 by ring]; exact hba)
      refine isFloat_of_grid hp1 (by omega : emin ≤ k - 1) ((gsk.mono (by omega)).sub gak) (hsa.trans ?_)
      have e1 : (2 : K) ^ (k - 1 + p) = 2 * 2 ^ (k + p - 2) := by rw [two_zpow_pred (k - 1 + p)]; congr 2; ring
      have e2 : (2 : K) ^ (j + p) ≤ 2 ^ (k + p - 2) := two_zpow_le (by omega)
      have e3 : (2 : K) ^ (k - 1) ≤ 2 ^ (k + p - 2) := two_zpow_le (by omega)
      linarith

/-- the larger operand is a multiple of the last place of the smaller one -/
theorem IsFloat.common (hp : 1 ≤ p) {a b : K} (fa : IsFloat p emin a) (fb : IsFloat p emin b) (h : |b| ≤ |a|) :
    ∃ j, emin ≤ j ∧ OnGrid j a ∧ OnGrid j b ∧ |b| < 2 ^ (j + p) := by
  obtain ⟨j, h1, h2, h3, h4⟩ := fb.canon hp
  refine ⟨j, h1, ?_, h2, h3⟩
  rcases h4 with rfl | h4
  · exact fa.grid_emin
  · exact fa.grid (h4.trans h)

theorem fastTwoSum_le (N : Nearest p emin rnd) (hp : 2 ≤ p) {a b : K} (fa : IsFloat p emin a) (fb : IsFloat p emin b)
    (h : |b| ≤ |a|) : IsFloat p emin (rnd (a + b) - a) ∧ IsFloat p emin (a + b - rnd (a + b)) := by
  obtain ⟨j, h1, h2, h3, h4⟩ := fa.common (by omega) fb h
  exact fastTwoSum_grid N hp h1 fa h2 h3 h4

/-- the error of a sum of two floating-point numbers is a floating-point number -/
theorem add_err_float (N : Nearest p emin rnd) (hp : 2 ≤ p) {a b : K} (fa : IsFloat p emin a) (fb : IsFloat p emin b) :
    IsFloat p emin (a + b - rnd (a + b)) := by
  rcases le_total |b| |a| with h | h
  · exact (fastTwoSum_le N hp fa fb h).2
  · have := (fastTwoSum_le N hp fb fa h).2
    rwa [add_comm] at this

/-- everything `LIS_QUAD_TWO_SUM` computes is exact after the first two operations -/
theorem twoSum_exact (N : Nearest p emin rnd) (hp : 3 ≤ p) {a b : K} (fa : IsFloat p emin a) (fb : IsFloat p emin b) :
    IsFloat p emin (rnd (a + b) - rnd (rnd (a + b) - a)) ∧
    IsFloat p emin (a - (rnd (a + b) - rnd (rnd (a + b) - a))) ∧
    IsFloat p emin (b - rnd (rnd (a + b) - a)) ∧ IsFloat p emin (a + b - rnd (a + b)) := by
  have hp1 : 1 ≤ p := by omega
  have herr := add_err_float N (by omega) fa fb
  rcases le_or_gt |b| |a| with hba | hab
  · have h := fastTwoSum_le N (by omega) fa fb hba
    rw [N.exact h.1]
    refine ⟨?_, ?_, ?_, herr⟩
    · rw [sub_sub_cancel]; exact fa
    · rw [sub_sub_cancel, sub_self]; exact IsFloat.zero
    · rw [show b - (rnd (a + b) - a) = a + b - rnd (a + b) by ring]; exact herr
  rcases le_or_gt |a| |rnd (a + b)| with hs | hs
  · have h := fastTwoSum_le N (by omega) (N.float (a + b)) fa.neg (by rwa [abs_neg])
    rw [← sub_eq_add_neg] at h
    refine ⟨?_, ?_, ?_, herr⟩
    · have := h.1.neg
      rwa [neg_sub] at this
    · have := h.2.neg
      rwa [show -(rnd (a + b) - a - rnd (rnd (a + b) - a)) = a - (rnd (a + b) - rnd (rnd (a + b) - a)) by ring] at this
    · obtain ⟨k, k1, k2, k3, k4⟩ := fb.canon hp1
      have hd : |rnd (a + b) - (a + b)| ≤ 2 ^ k := by
        have : |a + b| ≤ 2 ^ (k + 1 + p) := by
          rw [show k + 1 + (p : ℤ) = k + p + 1 by ring, two_zpow_succ]
          have := abs_add_le a b
          linarith
        have := N.err hp1 (by omega : emin ≤ k + 1) this
        rwa [add_sub_cancel_right] at this
      obtain ⟨t, ht⟩ : ∃ t, t = rnd (rnd (a + b) - a) := ⟨_, rfl⟩
      have hd2 : |t - (rnd (a + b) - a)| ≤ 2 ^ k := by
        have := N.near (rnd (a + b) - a) b fb
        rw [ht]
        refine this.trans ?_
        rw [show b - (rnd (a + b) - a) = -(rnd (a + b) - (a + b)) by ring, abs_neg]
        exact hd
      rw [← ht]
      have hbt : |b - t| ≤ 2 ^ (k + 1) := by
        have e : b - t = -(t - (rnd (a + b) - a)) - (rnd (a + b) - (a + b)) := by ring
        rw [e, two_zpow_succ]
        have := abs_sub (-(t - (rnd (a + b) - a))) (rnd (a + b) - (a + b))
        rw [abs_neg] at this
        linarith
      have ft : IsFloat p emin t := ht ▸ N.float _
      rcases k4 with rfl | k4
      · exact isFloat_of_grid hp1 (le_refl _) (fb.grid_emin.sub ft.grid_emin) (hbt.trans (two_zpow_le (by omega)))
      · rcases (by omega : k = emin ∨ emin ≤ k - 1) with rfl | hk
        · exact isFloat_of_grid hp1 (le_refl _) (fb.grid_emin.sub ft.grid_emin) (hbt.trans (two_zpow_le (by omega)))
        · have hbt' : 2 ^ (k - 1 + p - 1) ≤ |t| := by
            have h1 := abs_sub_abs_le_abs_sub b t
            have e1 : (2 : K) ^ (k + p - 1) = 2 * 2 ^ (k - 1 + p - 1) := by rw [two_zpow_pred (k + p - 1)]; congr 2; ring
            have e2 : (2 : K) ^ (k + 1) ≤ 2 ^ (k - 1 + p - 1) := two_zpow_le (by omega)
            linarith
          exact isFloat_of_grid hp1 hk ((k2.mono (by omega)).sub (ft.grid hbt')) (hbt.trans (two_zpow_le (by omega)))
  · obtain ⟨j, h1, h2, h3, h4⟩ := fb.common hp1 fa hab.le
    have hle : |a + b| ≤ |a| := by
      by_contra hc
      have fabs : IsFloat p emin |a| := by
        rcases abs_choice a with h | h
        · rw [h]; exact fa
        · rw [h]; exact fa.neg
      exact absurd (N.ge fabs (abs_nonneg _) (not_le.1 hc).le) (not_le.2 hs)
    have fs : IsFloat p emin (a + b) := isFloat_of_grid hp1 h1 (h3.add h2) (hle.trans h4.le)
    rw [N.exact fs, add_sub_cancel_left, N.exact fb]
    refine ⟨?_, ?_, ?_, ?_⟩
    · rw [add_sub_cancel_right]; exact fa
    · rw [add_sub_cancel_right, sub_self]; exact IsFloat.zero
    · rw [sub_self]; exact IsFloat.zero
    · rw [sub_self]; exact IsFloat.zero

end Lis
