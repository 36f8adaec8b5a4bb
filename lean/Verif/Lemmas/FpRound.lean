import Verif.Spec.FpRound
import Verif.Lemmas.Fp

namespace Lis

theorem rnInt_near (y : ℚ) (m : ℤ) : |(rnInt y : ℚ) - y| ≤ |(m : ℚ) - y| := by
  have h1 := Int.floor_le y
  have h2 := Int.lt_floor_add_one y
  have key : |(rnInt y : ℚ) - y| ≤ y - ⌊y⌋ ∧ |(rnInt y : ℚ) - y| ≤ ⌊y⌋ + 1 - y := by
    unfold rnInt
    split_ifs with a b c <;> push_cast <;> simp only [abs_le] <;> constructor <;> constructor <;> linarith
  rcases le_or_gt m ⌊y⌋ with h | h
  · have h' : (m : ℚ) ≤ ⌊y⌋ := by exact_mod_cast h
    rw [abs_of_nonpos (by linarith : (m : ℚ) - y ≤ 0)]
    linarith [key.1]
  · have h' : (⌊y⌋ : ℚ) + 1 ≤ m := by exact_mod_cast h
    rw [abs_of_nonneg (by linarith : (0 : ℚ) ≤ (m : ℚ) - y)]
    linarith [key.2]

theorem rne_grid_near (p : ℕ) (emin : ℤ) (x g : ℚ) (hg : OnGrid (rneExp p emin x) g) : |rne p emin x - x| ≤ |g - x| := by
  obtain ⟨m, rfl⟩ := hg
  unfold rne
  have h0 := two_zpow_pos (K := ℚ) (rneExp p emin x)
  have e : x = x / 2 ^ rneExp p emin x * 2 ^ rneExp p emin x := (div_mul_cancel₀ _ h0.ne').symm
  have := rnInt_near (x / 2 ^ rneExp p emin x) m
  have h3 := mul_le_mul_of_nonneg_right this h0.le
  rw [← abs_of_pos h0, ← abs_mul, ← abs_mul, sub_mul, sub_mul, abs_of_pos h0, ← e] at h3
  exact h3

theorem rne_nearest (p : ℕ) (emin : ℤ) (hp : 1 ≤ p) : Nearest p emin (rne p emin) := by
  have hlt : ∀ x : ℚ, |x| < 2 ^ (rneExp p emin x + p) := by
    intro x
    have := Int.lt_zpow_succ_log_self (b := 2) (by norm_num) |x|
    refine lt_of_lt_of_le (by exact_mod_cast this) (two_zpow_le ?_)
    unfold rneExp; omega
  have hge : ∀ x : ℚ, x ≠ 0 → emin < rneExp p emin x → 2 ^ (rneExp p emin x + p - 1) ≤ |x| := by
    intro x hx h
    have := Int.zpow_log_le_self (b := 2) (by norm_num) (abs_pos.2 hx)
    have e : rneExp p emin x + p - 1 = Int.log 2 |x| := by unfold rneExp at *; omega
    rw [e]; exact_mod_cast this
  constructor
  · intro x
    have hk : emin ≤ rneExp p emin x := le_max_left _ _
    refine isFloat_of_grid hp hk ⟨_, rfl⟩ ?_
    -- otherwise the power itself would be nearer
    by_contra hc
    push Not at hc
    have h0 := two_zpow_pos (K := ℚ) (rneExp p emin x + p)
    have g : OnGrid (rneExp p emin x) ((2 : ℚ) ^ (rneExp p emin x + p)) := OnGrid.pow (by omega)
    have n1 := rne_grid_near p emin x _ g
    have n2 := rne_grid_near p emin x _ g.neg
    have hx := abs_lt.1 (hlt x)
    rcases lt_abs.1 hc with h | h
    · rw [abs_of_pos (by linarith : 0 < rne p emin x - x), abs_of_pos (by linarith)] at n1; linarith
    · rw [abs_of_neg (by linarith : rne p emin x - x < 0), abs_of_neg (by linarith)] at n2; linarith
  · intro x f hf
    rcases eq_or_ne x 0 with rfl | hx
    · have : rne p emin 0 = 0 := by
        unfold rne
        have : rnInt (0 / 2 ^ rneExp p emin 0) = 0 := by rw [zero_div]; decide +kernel
        rw [this]; simp
      rw [this]; simp
    by_cases hg : OnGrid (rneExp p emin x) f
    · exact rne_grid_near p emin x f hg
    · have hk : emin < rneExp p emin x := by
        by_contra hc
        have : rneExp p emin x = emin := le_antisymm (by omega) (le_max_left _ _)
        exact hg (by rw [this]; exact hf.grid_emin)
      have hb := hge x hx hk
      have hfl : |f| < 2 ^ (rneExp p emin x + p - 1) := by
        by_contra hc
        exact hg (hf.grid (not_lt.1 hc))
      have g : OnGrid (rneExp p emin x) ((2 : ℚ) ^ (rneExp p emin x + p - 1)) := OnGrid.pow (by omega)
      have hf' := abs_lt.1 hfl
      rcases le_abs.1 hb with h | h
      · refine (rne_grid_near p emin x _ g).trans ?_
        rw [abs_of_nonpos (by linarith), abs_of_nonpos (by linarith)]; linarith
      · refine (rne_grid_near p emin x _ g.neg).trans ?_
        rw [abs_of_nonneg (by linarith), abs_of_nonneg (by linarith)]; linarith

end Lis
