import Verif.Spec.Fp
import Mathlib.Algebra.Order.Round
import Mathlib.Algebra.Order.Archimedean.Basic
import Mathlib.Tactic.Linarith
import Mathlib.Tactic.Ring
import Mathlib.Tactic.Positivity
import Mathlib.Tactic.FieldSimp

namespace Lis
variable {K : Type} [Field K] [LinearOrder K] [IsStrictOrderedRing K]

/-- multiple of `2^k` -/
def OnGrid (k : ℤ) (x : K) : Prop := ∃ m : ℤ, x = m * 2 ^ k

theorem two_zpow_pos (k : ℤ) : (0 : K) < 2 ^ k := zpow_pos (by norm_num) k

theorem two_zpow_le {j k : ℤ} (h : j ≤ k) : (2 : K) ^ j ≤ 2 ^ k := zpow_le_zpow_right₀ (by norm_num) h
theorem two_zpow_lt {j k : ℤ} (h : j < k) : (2 : K) ^ j < 2 ^ k := zpow_lt_zpow_right₀ (by norm_num) h
theorem of_two_zpow_lt {j k : ℤ} (h : (2 : K) ^ j < 2 ^ k) : j < k := by
  by_contra hc
  exact absurd h (not_lt.2 (two_zpow_le (by omega)))
theorem two_zpow_succ (k : ℤ) : (2 : K) ^ (k + 1) = 2 * 2 ^ k := by rw [zpow_add₀ (by norm_num), zpow_one, mul_comm]
theorem two_zpow_pred (k : ℤ) : (2 : K) ^ k = 2 * 2 ^ (k - 1) := by rw [← two_zpow_succ]; congr 1; omega
theorem two_zpow_addn (k : ℤ) (p : ℕ) : (2 : K) ^ (k + p) = 2 ^ p * 2 ^ k := by
  rw [zpow_add₀ (by norm_num), zpow_natCast, mul_comm]

theorem OnGrid.mono {j k : ℤ} {x : K} (h : OnGrid k x) (hjk : j ≤ k) : OnGrid j x := by
  obtain ⟨m, rfl⟩ := h
  obtain ⟨d, rfl⟩ : ∃ d : ℕ, k = j + d := ⟨(k - j).toNat, by omega⟩
  exact ⟨m * 2 ^ d, by rw [two_zpow_addn]; push_cast; ring⟩
theorem OnGrid.add {k : ℤ} {x y : K} (hx : OnGrid k x) (hy : OnGrid k y) : OnGrid k (x + y) := by
  obtain ⟨m, rfl⟩ := hx
  obtain ⟨l, rfl⟩ := hy
  exact ⟨m + l, by push_cast; ring⟩
theorem OnGrid.neg {k : ℤ} {x : K} (hx : OnGrid k x) : OnGrid k (-x) := by
  obtain ⟨m, rfl⟩ := hx
  exact ⟨-m, by push_cast; ring⟩
theorem OnGrid.sub {k : ℤ} {x y : K} (hx : OnGrid k x) (hy : OnGrid k y) : OnGrid k (x - y) := by
  rw [sub_eq_add_neg]; exact hx.add hy.neg
theorem OnGrid.mul {k l : ℤ} {x y : K} (hx : OnGrid k x) (hy : OnGrid l y) : OnGrid (k + l) (x * y) := by
  obtain ⟨m, rfl⟩ := hx
  obtain ⟨n, rfl⟩ := hy
  exact ⟨m * n, by rw [zpow_add₀ (by norm_num)]; push_cast; ring⟩
theorem OnGrid.zero (k : ℤ) : OnGrid k (0 : K) := ⟨0, by simp⟩
theorem OnGrid.pow {j k : ℤ} (h : j ≤ k) : OnGrid j ((2 : K) ^ k) := OnGrid.mono ⟨1, by simp⟩ h

/-- a multiple of `2^k` below `2^K` is at most `2^K - 2^k` -/
theorem OnGrid.lt_le {k j : ℤ} {x : K} (h : OnGrid k x) (hk : k ≤ j) (hx : |x| < 2 ^ j) : |x| ≤ 2 ^ j - 2 ^ k := by
  obtain ⟨m, rfl⟩ := h
  obtain ⟨d, rfl⟩ : ∃ d : ℕ, j = k + d := ⟨(j - k).toNat, by omega⟩
  have hp := two_zpow_pos (K := K) k
  rw [two_zpow_addn] at hx ⊢
  rw [abs_mul, abs_of_pos hp] at hx ⊢
  have h1 := lt_of_mul_lt_mul_right hx hp.le
  have h2 : |m| < 2 ^ d := by exact_mod_cast h1
  have h3 : |m| + 1 ≤ 2 ^ d := h2
  have h4 : (|m| : K) + 1 ≤ 2 ^ d := by exact_mod_cast h3
  nlinarith

/-- a nonzero multiple of `2^k` is at least `2^k` -/
theorem OnGrid.ge {k : ℤ} {x : K} (h : OnGrid k x) (hx : x ≠ 0) : 2 ^ k ≤ |x| := by
  obtain ⟨m, rfl⟩ := h
  have hp := two_zpow_pos (K := K) k
  have hm : m ≠ 0 := fun e => hx (by simp [e])
  rw [abs_mul, abs_of_pos hp]
  have : (1 : K) ≤ |(m : K)| := by exact_mod_cast Int.one_le_abs hm
  nlinarith

theorem isFloat_of_grid {p : ℕ} {emin k : ℤ} {x : K} (hp : 1 ≤ p) (hk : emin ≤ k) (hg : OnGrid k x) (hx : |x| ≤ 2 ^ (k + p)) :
    IsFloat p emin x := by
  obtain ⟨m, rfl⟩ := hg
  have h0 := two_zpow_pos (K := K) k
  rw [two_zpow_addn, abs_mul, abs_of_pos h0] at hx
  have h1 := le_of_mul_le_mul_right hx h0
  have h2 : |m| ≤ 2 ^ p := by exact_mod_cast h1
  rcases h2.lt_or_eq with h3 | h3
  · exact ⟨m, k, h3, hk, rfl⟩
  · obtain ⟨q, rfl⟩ : ∃ q, p = q + 1 := ⟨p - 1, by omega⟩
    have hq : (2 : ℤ) ^ q < 2 ^ (q + 1) := by
      rw [pow_succ]; have : (0 : ℤ) < 2 ^ q := by positivity
      linarith
    rcases abs_choice m with h | h
    · refine ⟨2 ^ q, k + 1, by rw [abs_of_pos (by positivity)]; exact hq, by omega, ?_⟩
      have : m = 2 ^ (q + 1) := by rw [← h3, h]
      rw [this, two_zpow_succ]; push_cast; ring
    · refine ⟨-2 ^ q, k + 1, by rw [abs_neg, abs_of_pos (by positivity)]; exact hq, by omega, ?_⟩
      have : m = -2 ^ (q + 1) := by rw [← h3, h, neg_neg]
      rw [this, two_zpow_succ]; push_cast; ring

theorem IsFloat.grid_emin {p : ℕ} {emin : ℤ} {x : K} (h : IsFloat p emin x) : OnGrid emin x := by
  obtain ⟨m, e, -, he, rfl⟩ := h
  exact OnGrid.mono ⟨m, rfl⟩ he

theorem IsFloat.neg {p : ℕ} {emin : ℤ} {x : K} (h : IsFloat p emin x) : IsFloat p emin (-x) := by
  obtain ⟨m, e, hm, he, rfl⟩ := h
  exact ⟨-m, e, by rwa [abs_neg], he, by push_cast; ring⟩

theorem IsFloat.zero {p : ℕ} {emin : ℤ} : IsFloat p emin (0 : K) := ⟨0, emin, by simp, le_refl _, by simp⟩

/-- canonical exponent -/
theorem IsFloat.canon {p : ℕ} {emin : ℤ} {x : K} (hp : 1 ≤ p) (h : IsFloat p emin x) :
    ∃ k, emin ≤ k ∧ OnGrid k x ∧ |x| < 2 ^ (k + p) ∧ (k = emin ∨ 2 ^ (k + p - 1) ≤ |x|) := by
  obtain ⟨m, e, hm, he, rfl⟩ := h
  obtain ⟨d, rfl⟩ : ∃ d : ℕ, e = emin + d := ⟨(e - emin).toNat, by omega⟩
  clear he
  induction d generalizing m with
  | zero =>
    refine ⟨emin, le_refl _, ⟨m, by simp⟩, ?_, Or.inl rfl⟩
    have h0 := two_zpow_pos (K := K) emin
    rw [Int.ofNat_zero, add_zero, two_zpow_addn emin p, abs_mul, abs_of_pos h0]
    have : (|m| : K) < 2 ^ p := by exact_mod_cast hm
    exact mul_lt_mul_of_pos_right this h0
  | succ d ih =>
    have h0 := two_zpow_pos (K := K) (emin + (d + 1 : ℕ))
    by_cases hb : 2 * |m| < 2 ^ p
    · have := ih (2 * m) (by rw [abs_mul]; simpa using hb)
      have e : ((2 * m : ℤ) : K) * 2 ^ (emin + (d : ℤ)) = m * 2 ^ (emin + ((d + 1 : ℕ) : ℤ)) := by
        have : emin + ((d + 1 : ℕ) : ℤ) = (emin + d) + 1 := by push_cast; omega
        rw [this, two_zpow_succ]; push_cast; ring
      rwa [e] at this
    · refine ⟨_, by omega, ⟨m, rfl⟩, ?_, Or.inr ?_⟩
      · rw [two_zpow_addn _ p, abs_mul, abs_of_pos h0]
        have : (|m| : K) < 2 ^ p := by exact_mod_cast hm
        exact mul_lt_mul_of_pos_right this h0
      · obtain ⟨q, rfl⟩ : ∃ q, p = q + 1 := ⟨p - 1, by omega⟩
        have : (2 : ℤ) ^ q ≤ |m| := by rw [pow_succ] at hb; linarith
        have : (2 : K) ^ q ≤ |(m : K)| := by exact_mod_cast this
        have e : emin + ((d + 1 : ℕ) : ℤ) + ((q + 1 : ℕ) : ℤ) - 1 = emin + ((d + 1 : ℕ) : ℤ) + (q : ℕ) := by push_cast; omega
        rw [e, two_zpow_addn _ q, abs_mul, abs_of_pos h0]
        exact mul_le_mul_of_nonneg_right this h0.le

theorem IsFloat.grid {p : ℕ} {emin k : ℤ} {x : K} (h : IsFloat p emin x) (hx : 2 ^ (k + p - 1) ≤ |x|) : OnGrid k x := by
  obtain ⟨m, e, hm, he, rfl⟩ := h
  refine OnGrid.mono ⟨m, rfl⟩ ?_
  have h0 := two_zpow_pos (K := K) e
  have h1 : (|m| : K) < 2 ^ p := by exact_mod_cast hm
  rw [abs_mul, abs_of_pos h0] at hx
  have h2 : (2 : K) ^ (k + p - 1) < 2 ^ (e + p) := by
    rw [two_zpow_addn]
    exact lt_of_le_of_lt hx (mul_lt_mul_of_pos_right h1 h0)
  have := of_two_zpow_lt h2
  omega

theorem isFloat_pow {p : ℕ} {emin k : ℤ} (hp : 1 ≤ p) (hk : emin ≤ k) : IsFloat p emin ((2 : K) ^ k) :=
  isFloat_of_grid hp hk ⟨1, by simp⟩ (by
    rw [abs_of_pos (two_zpow_pos k)]; exact two_zpow_le (by omega))

section
variable {p : ℕ} {emin : ℤ} {rnd : K → K} (N : Nearest p emin rnd)
include N

theorem Nearest.exact {x : K} (h : IsFloat p emin x) : rnd x = x := by
  have := N.near x x h
  rw [sub_self, abs_zero] at this
  exact sub_eq_zero.1 (abs_nonpos_iff.1 this)

theorem Nearest.ge {x f : K} (hf : IsFloat p emin f) (h0 : 0 ≤ f) (h : f ≤ |x|) : f ≤ |rnd x| := by
  rcases le_total 0 x with hx | hx
  · rw [abs_of_nonneg hx] at h
    by_contra hc
    have h1 := N.near x f hf
    have h2 : rnd x < f := lt_of_le_of_lt (le_abs_self _) (not_le.1 hc)
    rw [abs_sub_comm, abs_of_nonneg (by linarith), abs_sub_comm, abs_of_nonneg (by linarith)] at h1
    linarith
  · rw [abs_of_nonpos hx] at h
    by_contra hc
    have h1 := N.near x (-f) hf.neg
    have h2 : -f < rnd x := by have := neg_le_abs (rnd x); linarith [not_le.1 hc]
    rw [abs_of_nonneg (by linarith), abs_of_nonneg (by linarith)] at h1
    linarith

theorem Nearest.le {x f : K} (hf : IsFloat p emin f) (h : |x| ≤ f) : |rnd x| ≤ f := by
  have hx := abs_le.1 h
  refine abs_le.2 ⟨?_, ?_⟩
  · by_contra hc
    have h1 := N.near x (-f) hf.neg
    rw [abs_sub_comm, abs_of_nonneg (by linarith), abs_sub_comm, abs_of_nonneg (by linarith)] at h1
    linarith
  · by_contra hc
    have h1 := N.near x f hf
    rw [abs_of_nonneg (by linarith), abs_of_nonneg (by linarith)] at h1
    linarith

theorem Nearest.grid (hp : 1 ≤ p) {x : K} {k : ℤ} (hk : emin ≤ k) (hg : OnGrid k x) : OnGrid k (rnd x) := by
  rcases le_total |x| (2 ^ (k + p)) with h | h
  · rw [N.exact (isFloat_of_grid hp hk hg h)]; exact hg
  · have := N.ge (isFloat_pow hp (by omega : emin ≤ k + p)) (two_zpow_pos _).le h
    exact (N.float x).grid (le_trans (two_zpow_le (by omega)) this)

theorem Nearest.err [FloorRing K] (hp : 1 ≤ p) {x : K} {k : ℤ} (hk : emin ≤ k) (hx : |x| ≤ 2 ^ (k + p)) :
    |rnd x - x| ≤ 2 ^ (k - 1) := by
  have h0 := two_zpow_pos (K := K) k
  have e : x / 2 ^ k * 2 ^ k = x := div_mul_cancel₀ _ h0.ne'
  have hr : |x / 2 ^ k - round (x / 2 ^ k)| ≤ 1 / 2 := abs_sub_round _
  have hb : |(round (x / 2 ^ k) : K)| ≤ 2 ^ p := by
    have h1 : |x / 2 ^ k| ≤ 2 ^ p := by
      rw [abs_div, abs_of_pos h0, div_le_iff₀ h0, ← two_zpow_addn]; exact hx
    have h2 : |round (x / 2 ^ k)| < 2 ^ p + 1 := by
      have h3 : |(round (x / 2 ^ k) : K)| ≤ 2 ^ p + 1 / 2 := by
        have := abs_sub_abs_le_abs_sub (round (x / 2 ^ k) : K) (x / 2 ^ k)
        rw [abs_sub_comm] at this
        linarith
      have h4 : ((|round (x / 2 ^ k)| : ℤ) : K) < ((2 ^ p + 1 : ℤ) : K) := by push_cast; linarith
      exact_mod_cast h4
    have h5 : |round (x / 2 ^ k)| ≤ 2 ^ p := by omega
    exact_mod_cast h5
  have hf : IsFloat p emin ((round (x / 2 ^ k) : K) * 2 ^ k) := by
    refine isFloat_of_grid hp hk ⟨_, rfl⟩ ?_
    rw [abs_mul, abs_of_pos h0, two_zpow_addn]
    exact mul_le_mul_of_nonneg_right hb h0.le
  refine (N.near x _ hf).trans ?_
  have : (round (x / 2 ^ k) : K) * 2 ^ k - x = -((x / 2 ^ k - round (x / 2 ^ k)) * 2 ^ k) := by
    rw [sub_mul, e]; ring
  rw [this, abs_neg, abs_mul, abs_of_pos h0]
  have e2 : (2 : K) ^ k = 2 * 2 ^ (k - 1) := two_zpow_pred k
  have := mul_le_mul_of_nonneg_right hr h0.le
  linarith

end

end Lis
