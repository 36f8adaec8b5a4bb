import Verif.Lemmas.TwoSum

namespace Lis
variable {K : Type} [Field K] [LinearOrder K] [IsStrictOrderedRing K]

/-- `2^k ≤ |x| / 2^(p-1) < 2^(k+1)` and `x` is a multiple of `2^k` -/
structure HasExp (p : ℕ) (k : ℤ) (x : K) : Prop where
  grid : OnGrid k x
  lo : 2 ^ (k + p - 1) ≤ |x|
  hi : |x| < 2 ^ (k + p)

theorem OnGrid.le_of_lt {g j : ℤ} {x : K} (h : OnGrid g x) (hg : g ≤ j) (hx : |x| < 2 ^ j + 2 ^ g) : |x| ≤ 2 ^ j := by
  obtain ⟨m, rfl⟩ := h
  obtain ⟨d, rfl⟩ : ∃ d : ℕ, j = g + d := ⟨(j - g).toNat, by omega⟩
  have hp := two_zpow_pos (K := K) g
  rw [two_zpow_addn] at hx ⊢
  rw [abs_mul, abs_of_pos hp] at hx ⊢
  have h1 : |(m : K)| < 2 ^ d + 1 := by
    refine lt_of_mul_lt_mul_right (a := (2 : K) ^ g) ?_ hp.le
    linarith
  have h2 : |m| < 2 ^ d + 1 := by exact_mod_cast h1
  have h3 : |m| ≤ 2 ^ d := by omega
  have h4 : |(m : K)| ≤ 2 ^ d := by exact_mod_cast h3
  exact mul_le_mul_of_nonneg_right h4 hp.le

variable [FloorRing K] {p : ℕ} {emin : ℤ} {rnd : K → K}

/-- Veltkamp's splitting: the value computed for `hi`, then `lo` -/
theorem split_exact (N : Nearest p emin rnd) {s : ℕ} (hs : 1 ≤ s) (hsp : s + 1 ≤ p) {x : K} {k : ℤ} (hk : emin ≤ k)
    (hx : HasExp p k x) :
    ∃ h, rnd (rnd ((2 ^ s + 1) * x) - rnd (rnd ((2 ^ s + 1) * x) - x)) = h ∧ rnd (x - h) = x - h ∧
      OnGrid (k + s) h ∧ OnGrid k (x - h) ∧ |h| ≤ 2 ^ (k + p) ∧ |x - h| ≤ 2 ^ (k + s - 1) := by
  have hp1 : 1 ≤ p := by omega
  rcases hx.lo.lt_or_eq with hlt | heq
  · have hlo : 2 ^ (k + p - 1) + 2 ^ k ≤ |x| := by
      by_contra hc
      have := hx.grid.le_of_lt (by omega) (not_le.1 hc)
      linarith
    have hhi := hx.grid.lt_le (by omega) hx.hi
    have h2s : (1 : K) ≤ 2 ^ s := one_le_pow₀ (by norm_num)
    have es : ∀ j : ℤ, (2 : K) ^ (j + s) = 2 ^ s * 2 ^ j := fun j => two_zpow_addn j s
    have hC : |(2 ^ s + 1) * x| = (2 ^ s + 1) * |x| := by rw [abs_mul, abs_of_pos (by positivity)]
    have hCx1 : |(2 ^ s + 1) * x| ≤ 2 ^ (k + s + 1 + p) := by
      rw [hC, show k + (s : ℤ) + 1 + p = (k + p) + 1 + s by ring, es, two_zpow_succ]
      have := two_zpow_pos (K := K) (k + p)
      nlinarith [hx.hi, abs_nonneg x]
    have hCx2 : 2 ^ (k + s + p - 1) ≤ |(2 ^ s + 1) * x| := by
      rw [hC, show k + (s : ℤ) + p - 1 = (k + p - 1) + s by ring, es]
      nlinarith [hx.lo, abs_nonneg x]
    obtain ⟨g, hg⟩ : ∃ g, g = rnd ((2 ^ s + 1) * x) := ⟨_, rfl⟩
    have ge := N.err hp1 (by omega : emin ≤ k + s + 1) hCx1
    rw [← hg, show k + (s : ℤ) + 1 - 1 = k + s by ring] at ge
    have gg : OnGrid (k + s) g := by
      have := N.ge (isFloat_pow hp1 (by omega : emin ≤ k + s + p - 1)) (two_zpow_pos _).le hCx2
      exact hg ▸ (N.float _).grid this
    have egx : g - x = 2 ^ s * x + (g - (2 ^ s + 1) * x) := by ring
    have absx : |2 ^ s * x| = 2 ^ s * |x| := by rw [abs_mul, abs_of_pos (by positivity)]
    have hgx1 : |g - x| ≤ 2 ^ (k + s + p) := by
      have := abs_add_le (2 ^ s * x) (g - (2 ^ s + 1) * x)
      rw [← egx, absx] at this
      rw [es] at ge
      rw [show k + (s : ℤ) + p = (k + p) + s by ring, es]
      nlinarith
    have hgx2 : 2 ^ (k + s + p - 1) ≤ |g - x| := by
      have h1 := abs_sub_abs_le_abs_sub (2 ^ s * x) (-(g - (2 ^ s + 1) * x))
      rw [sub_neg_eq_add, ← egx, absx, abs_neg] at h1
      rw [es] at ge
      rw [show k + (s : ℤ) + p - 1 = (k + p - 1) + s by ring, es]
      nlinarith
    obtain ⟨d, hd⟩ : ∃ d, d = rnd (g - x) := ⟨_, rfl⟩
    have de := N.err hp1 (by omega : emin ≤ k + s) hgx1
    rw [← hd] at de
    have gd : OnGrid (k + s) d := by
      have := N.ge (isFloat_pow hp1 (by omega : emin ≤ k + s + p - 1)) (two_zpow_pos _).le hgx2
      exact hd ▸ (N.float _).grid this
    have hdx : |x - (g - d)| ≤ 2 ^ (k + s - 1) := by
      rw [show x - (g - d) = d - (g - x) by ring]; exact de
    have hlt2 : |g - d| < 2 ^ (k + p) + 2 ^ (k + s) := by
      have h1 := abs_sub_abs_le_abs_sub (g - d) x
      rw [abs_sub_comm (g - d) x] at h1
      have h2 : (2 : K) ^ (k + s - 1) < 2 ^ (k + s) := two_zpow_lt (by omega)
      linarith [hx.hi]
    have hle := (gg.sub gd).le_of_lt (by omega) hlt2
    refine ⟨g - d, ?_, ?_, gg.sub gd, ?_, hle, hdx⟩
    · rw [← hg, ← hd]
      exact N.exact (isFloat_of_grid hp1 (by omega : emin ≤ k + s) (gg.sub gd) (hle.trans (two_zpow_le (by omega))))
    · exact N.exact (isFloat_of_grid hp1 hk (hx.grid.sub ((gg.sub gd).mono (by omega))) (hdx.trans (two_zpow_le (by omega))))
    · exact hx.grid.sub ((gg.sub gd).mono (by omega))
  · have hgx : OnGrid (k + p - 1) x := by
      rcases abs_choice x with h | h
      · exact ⟨1, by rw [← h, ← heq]; simp⟩
      · exact ⟨-1, by push_cast; rw [heq, h]; ring⟩
    have h2s : (2 : K) ^ s + 1 ≤ 2 ^ p := by
      have h1 : (2 : ℕ) ^ s + 1 ≤ 2 ^ p := by
        have h2 : 2 ^ (s + 1) ≤ 2 ^ p := Nat.pow_le_pow_right (by norm_num) hsp
        have h3 : 1 ≤ 2 ^ s := Nat.one_le_two_pow
        rw [pow_succ] at h2; omega
      exact_mod_cast h1
    have gC : OnGrid (k + p - 1) ((2 ^ s + 1) * x) := by
      obtain ⟨m, hm⟩ := hgx
      exact ⟨(2 ^ s + 1) * m, by push_cast; rw [hm]; ring⟩
    have fC : IsFloat p emin ((2 ^ s + 1) * x) := by
      refine isFloat_of_grid hp1 (by omega : emin ≤ k + p - 1) gC ?_
      rw [abs_mul, ← heq, abs_of_pos (by positivity), two_zpow_addn]
      exact mul_le_mul_of_nonneg_right h2s (two_zpow_pos _).le
    have g2 : (2 ^ s + 1) * x - x = 2 ^ s * x := by ring
    have f2 : IsFloat p emin (2 ^ s * x) := by
      refine isFloat_of_grid hp1 (by omega : emin ≤ k + p - 1) ?_ ?_
      · obtain ⟨m, hm⟩ := hgx
        exact ⟨2 ^ s * m, by push_cast; rw [hm]; ring⟩
      · rw [abs_mul, ← heq, abs_of_pos (by positivity), two_zpow_addn]
        exact mul_le_mul_of_nonneg_right (by linarith) (two_zpow_pos _).le
    have fx : IsFloat p emin x := isFloat_of_grid hp1 hk hx.grid hx.hi.le
    refine ⟨x, ?_, by rw [sub_self]; exact N.exact IsFloat.zero, hgx.mono (by omega), by rw [sub_self]; exact OnGrid.zero _, hx.hi.le,
      by rw [sub_self, abs_zero]; exact (two_zpow_pos _).le⟩
    rw [N.exact fC, g2, N.exact f2, show (2 ^ s + 1) * x - 2 ^ s * x = x by ring, N.exact fx]

/-- value of `LIS_QUAD_SPLIT` (high part) -/
def splitHi (rnd : K → K) (C x : K) : K := rnd (rnd (C * x) - rnd (rnd (C * x) - x))
/-- value of the error term of `LIS_QUAD_TWO_PROD` -/
def prodErr (rnd : K → K) (C a b : K) : K :=
  let ah := splitHi rnd C a
  let al := rnd (a - ah)
  let bh := splitHi rnd C b
  let bl := rnd (b - bh)
  rnd (rnd (rnd (rnd (rnd (ah * bh) - rnd (a * b)) + rnd (ah * bl)) + rnd (al * bh)) + rnd (al * bl))

theorem HasExp.float {k : ℤ} {x : K} (hp : 1 ≤ p) (hk : emin ≤ k) (h : HasExp p k x) : IsFloat p emin x :=
  isFloat_of_grid hp hk h.grid h.hi.le

/-- size of a product and of its rounding error -/
theorem prod_bounds (N : Nearest p emin rnd) (hp : 1 ≤ p) {a b : K} {j k : ℤ} (hjk : emin ≤ j + k)
    (ha : HasExp p j a) (hb : HasExp p k b) :
    2 ^ (j + k + 2 * p - 2) ≤ |a * b| ∧ |a * b| ≤ 2 ^ (j + k + p + p) ∧ |rnd (a * b) - a * b| ≤ 2 ^ (j + k + p - 1) ∧
    OnGrid (j + k + p - 1) (rnd (a * b)) ∧ 2 ^ (j + k + 2 * p - 2) ≤ |rnd (a * b)| := by
  have h1 : (2 : K) ^ (j + k + 2 * p - 2) ≤ |a * b| := by
    rw [abs_mul, show j + k + 2 * (p : ℤ) - 2 = (j + p - 1) + (k + p - 1) by ring, zpow_add₀ (by norm_num)]
    exact mul_le_mul ha.lo hb.lo (two_zpow_pos _).le (abs_nonneg _)
  have h2 : |a * b| ≤ 2 ^ (j + k + p + p) := by
    rw [abs_mul, show j + k + (p : ℤ) + p = (j + p) + (k + p) by ring, zpow_add₀ (by norm_num)]
    exact mul_le_mul ha.hi.le hb.hi.le (abs_nonneg _) (two_zpow_pos _).le
  have h3 := N.ge (isFloat_pow hp (by omega : emin ≤ j + k + 2 * p - 2)) (two_zpow_pos _).le h1
  refine ⟨h1, h2, N.err hp (by omega) h2, (N.float _).grid ?_, h3⟩
  rw [show j + k + (p : ℤ) - 1 + p - 1 = j + k + 2 * p - 2 by ring]
  exact h3

/-- Dekker's product is exact -/
theorem prodErr_exact (N : Nearest p emin rnd) {s : ℕ} (hs : 1 ≤ s) (hsp : s + 2 ≤ p) (h2s : p ≤ 2 * s) (h2s' : 2 * s ≤ p + 2)
    {a b : K} {j k : ℤ} (hj : emin ≤ j) (hk : emin ≤ k) (hjk : emin ≤ j + k) (ha : HasExp p j a) (hb : HasExp p k b) :
    prodErr rnd (2 ^ s + 1) a b = a * b - rnd (a * b) := by
  have hp1 : 1 ≤ p := by omega
  obtain ⟨ah, a1, a2, a3, a4, a5, a6⟩ := split_exact N hs (by omega) hj ha
  obtain ⟨bh, b1, b2, b3, b4, b5, b6⟩ := split_exact N hs (by omega) hk hb
  obtain ⟨r1, r2, r3, r4, -⟩ := prod_bounds N hp1 hjk ha hb
  unfold prodErr splitHi
  simp only [a1, a2, b1, b2]
  obtain ⟨al, hal⟩ : ∃ al, al = a - ah := ⟨_, rfl⟩
  obtain ⟨bl, hbl⟩ : ∃ bl, bl = b - bh := ⟨_, rfl⟩
  obtain ⟨r, hr⟩ : ∃ r, r = rnd (a * b) := ⟨_, rfl⟩
  rw [← hal] at a4 a6 ⊢
  rw [← hbl] at b4 b6 ⊢
  rw [← hr] at r3 r4 ⊢
  have mulb : ∀ {x y : K} {i l : ℤ}, |x| ≤ 2 ^ i → |y| ≤ 2 ^ l → |x * y| ≤ 2 ^ (i + l) := by
    intro x y i l hx hy
    rw [abs_mul, zpow_add₀ (by norm_num)]
    exact mul_le_mul hx hy (abs_nonneg _) (two_zpow_pos _).le
  have f1 : rnd (ah * bh) = ah * bh := N.exact (isFloat_of_grid hp1 (by omega : emin ≤ j + s + (k + s)) (a3.mul b3)
    ((mulb a5 b5).trans (two_zpow_le (by omega))))
  have f2 : rnd (ah * bl) = ah * bl := N.exact (isFloat_of_grid hp1 (by omega : emin ≤ j + s + k) (a3.mul b4)
    ((mulb a5 b6).trans (two_zpow_le (by omega))))
  have f3 : rnd (al * bh) = al * bh := N.exact (isFloat_of_grid hp1 (by omega : emin ≤ j + (k + s)) (a4.mul b3)
    ((mulb a6 b5).trans (two_zpow_le (by omega))))
  have f4 : rnd (al * bl) = al * bl := N.exact (isFloat_of_grid hp1 hjk (a4.mul b4)
    ((mulb a6 b6).trans (two_zpow_le (by omega))))
  rw [f1, f2, f3, f4]
  have halb : |al * b| ≤ 2 ^ (j + k + s + p - 1) := by
    refine (mulb a6 hb.hi.le).trans (two_zpow_le (by omega))
  have hahbl : |ah * bl| ≤ 2 ^ (j + k + s + p - 1) := by
    refine (mulb a5 b6).trans (two_zpow_le (by omega))
  have halbl : |al * bl| ≤ 2 ^ (j + k + 2 * s - 2) := by
    refine (mulb a6 b6).trans (two_zpow_le (by omega))
  have e1 : ah * bh - r = -(ah * bl) - al * b - (r - a * b) := by rw [hbl, hal]; ring
  have t1 : rnd (ah * bh - r) = ah * bh - r := by
    refine N.exact (isFloat_of_grid hp1 (by omega : emin ≤ j + k + p - 1) (((a3.mul b3).mono (by omega)).sub r4) ?_)
    rw [e1]
    have q1 := abs_sub (-(ah * bl) - al * b) (r - a * b)
    have q2 := abs_sub (-(ah * bl)) (al * b)
    rw [abs_neg] at q2
    have w1 : (2 : K) ^ (j + k + s + p) = 2 * 2 ^ (j + k + s + p - 1) := two_zpow_pred _
    have w2 : (2 : K) ^ (j + k + s + p + 1) = 2 * 2 ^ (j + k + s + p) := two_zpow_succ _
    have w3 : (2 : K) ^ (j + k + p - 1) ≤ 2 ^ (j + k + s + p) := two_zpow_le (by omega)
    have w4 : (2 : K) ^ (j + k + s + p + 1) ≤ 2 ^ (j + k + p - 1 + p) := two_zpow_le (by omega)
    linarith
  have e2 : ah * bh - r + ah * bl = -(al * b) - (r - a * b) := by rw [hbl, hal]; ring
  have t2 : rnd (ah * bh - r + ah * bl) = ah * bh - r + ah * bl := by
    refine N.exact (isFloat_of_grid hp1 (by omega : emin ≤ j + s + k)
      ((((a3.mul b3).mono (by omega)).sub (r4.mono (by omega))).add (a3.mul b4)) ?_)
    rw [e2]
    have q1 := abs_sub (-(al * b)) (r - a * b)
    rw [abs_neg] at q1
    have w1 : (2 : K) ^ (j + s + k + p) = 2 * 2 ^ (j + k + s + p - 1) := by rw [two_zpow_pred]; congr 2; ring
    have w3 : (2 : K) ^ (j + k + p - 1) ≤ 2 ^ (j + k + s + p - 1) := two_zpow_le (by omega)
    linarith
  have e3 : ah * bh - r + ah * bl + al * bh = -(al * bl) - (r - a * b) := by rw [hbl, hal]; ring
  have t3 : rnd (ah * bh - r + ah * bl + al * bh) = ah * bh - r + ah * bl + al * bh := by
    refine N.exact (isFloat_of_grid hp1 (by omega : emin ≤ j + s + k)
      (((((a3.mul b3).mono (by omega)).sub (r4.mono (by omega))).add (a3.mul b4)).add ((a4.mul b3).mono (by omega))) ?_)
    rw [e3]
    have q1 := abs_sub (-(al * bl)) (r - a * b)
    rw [abs_neg] at q1
    have w1 : (2 : K) ^ (j + s + k + p) = 2 * 2 ^ (j + k + s + p - 1) := by rw [two_zpow_pred]; congr 2; ring
    have w3 : (2 : K) ^ (j + k + p - 1) ≤ 2 ^ (j + k + s + p - 1) := two_zpow_le (by omega)
    have w4 : (2 : K) ^ (j + k + 2 * s - 2) ≤ 2 ^ (j + k + s + p - 1) := two_zpow_le (by omega)
    linarith
  have e4 : ah * bh - r + ah * bl + al * bh + al * bl = a * b - r := by rw [hbl, hal]; ring
  rw [t1, t2, t3, e4]
  refine N.exact (isFloat_of_grid hp1 hjk ((ha.grid.mul hb.grid).sub (r4.mono (by omega))) ?_)
  rw [abs_sub_comm]
  exact r3.trans (two_zpow_le (by omega))

/-- value of the error term of `LIS_QUAD_TWO_SQR` -/
def sqrErr (rnd : K → K) (C a : K) : K :=
  let ah := splitHi rnd C a
  let al := rnd (a - ah)
  rnd (rnd (rnd (rnd (ah * ah) - rnd (a * a)) + rnd (rnd (2 * ah) * al)) + rnd (al * al))

theorem sqrErr_exact (N : Nearest p emin rnd) {s : ℕ} (hs : 1 ≤ s) (hsp : s + 2 ≤ p) (h2s : p ≤ 2 * s) (h2s' : 2 * s ≤ p + 2)
    {a : K} {j : ℤ} (hj : emin ≤ j) (hjk : emin ≤ j + j) (ha : HasExp p j a) :
    sqrErr rnd (2 ^ s + 1) a = a * a - rnd (a * a) := by
  have hp1 : 1 ≤ p := by omega
  obtain ⟨ah, a1, a2, a3, a4, a5, a6⟩ := split_exact N hs (by omega) hj ha
  obtain ⟨r1, r2, r3, r4, -⟩ := prod_bounds N hp1 hjk ha ha
  unfold sqrErr splitHi
  simp only [a1, a2]
  obtain ⟨al, hal⟩ : ∃ al, al = a - ah := ⟨_, rfl⟩
  obtain ⟨r, hr⟩ : ∃ r, r = rnd (a * a) := ⟨_, rfl⟩
  rw [← hal] at a4 a6 ⊢
  rw [← hr] at r3 r4 ⊢
  have mulb : ∀ {x y : K} {i l : ℤ}, |x| ≤ 2 ^ i → |y| ≤ 2 ^ l → |x * y| ≤ 2 ^ (i + l) := by
    intro x y i l hx hy
    rw [abs_mul, zpow_add₀ (by norm_num)]
    exact mul_le_mul hx hy (abs_nonneg _) (two_zpow_pos _).le
  have g2 : OnGrid (j + s + 1) (2 * ah) := by
    obtain ⟨m, hm⟩ := a3
    exact ⟨m, by rw [two_zpow_succ, hm]; ring⟩
  have b2 : |2 * ah| ≤ 2 ^ (j + p + 1) := by
    rw [abs_mul, abs_of_pos (by norm_num : (0 : K) < 2), two_zpow_succ]
    exact mul_le_mul_of_nonneg_left a5 (by norm_num)
  have f0 : rnd (2 * ah) = 2 * ah := N.exact (isFloat_of_grid hp1 (by omega : emin ≤ j + s + 1) g2
    (b2.trans (two_zpow_le (by omega))))
  have f1 : rnd (ah * ah) = ah * ah := N.exact (isFloat_of_grid hp1 (by omega : emin ≤ j + s + (j + s)) (a3.mul a3)
    ((mulb a5 a5).trans (two_zpow_le (by omega))))
  have f2 : rnd (2 * ah * al) = 2 * ah * al := N.exact (isFloat_of_grid hp1 (by omega : emin ≤ j + s + 1 + j) (g2.mul a4)
    ((mulb b2 a6).trans (two_zpow_le (by omega))))
  have f4 : rnd (al * al) = al * al := N.exact (isFloat_of_grid hp1 hjk (a4.mul a4)
    ((mulb a6 a6).trans (two_zpow_le (by omega))))
  rw [f0, f1, f2, f4]
  have hahal : |2 * ah * al| ≤ 2 ^ (j + j + s + p) := (mulb b2 a6).trans (two_zpow_le (by omega))
  have halal : |al * al| ≤ 2 ^ (j + j + 2 * s - 2) := (mulb a6 a6).trans (two_zpow_le (by omega))
  have w3 : (2 : K) ^ (j + j + p - 1) ≤ 2 ^ (j + j + s + p - 1) := two_zpow_le (by omega)
  have w4 : (2 : K) ^ (j + j + 2 * s - 2) ≤ 2 ^ (j + j + s + p - 1) := two_zpow_le (by omega)
  have w1 : (2 : K) ^ (j + j + s + p) = 2 * 2 ^ (j + j + s + p - 1) := two_zpow_pred _
  have e1 : ah * ah - r = -(2 * ah * al) - al * al - (r - a * a) := by rw [hal]; ring
  have t1 : rnd (ah * ah - r) = ah * ah - r := by
    refine N.exact (isFloat_of_grid hp1 (by omega : emin ≤ j + j + p - 1) (((a3.mul a3).mono (by omega)).sub r4) ?_)
    rw [e1]
    have q1 := abs_sub (-(2 * ah * al) - al * al) (r - a * a)
    have q2 := abs_sub (-(2 * ah * al)) (al * al)
    rw [abs_neg] at q2
    have w2 : (2 : K) ^ (j + j + s + p + 1) = 2 * 2 ^ (j + j + s + p) := two_zpow_succ _
    have w5 : (2 : K) ^ (j + j + s + p + 1) ≤ 2 ^ (j + j + p - 1 + p) := two_zpow_le (by omega)
    linarith
  have e2 : ah * ah - r + 2 * ah * al = -(al * al) - (r - a * a) := by rw [hal]; ring
  have t2 : rnd (ah * ah - r + 2 * ah * al) = ah * ah - r + 2 * ah * al := by
    refine N.exact (isFloat_of_grid hp1 (by omega : emin ≤ j + s + 1 + j)
      ((((a3.mul a3).mono (by omega)).sub (r4.mono (by omega))).add (g2.mul a4)) ?_)
    rw [e2]
    have q1 := abs_sub (-(al * al)) (r - a * a)
    rw [abs_neg] at q1
    have w5 : (2 : K) ^ (j + j + s + p) ≤ 2 ^ (j + s + 1 + j + p) := two_zpow_le (by omega)
    linarith
  have e4 : ah * ah - r + 2 * ah * al + al * al = a * a - r := by rw [hal]; ring
  rw [t1, t2, e4]
  refine N.exact (isFloat_of_grid hp1 hjk ((ha.grid.mul ha.grid).sub (r4.mono (by omega))) ?_)
  rw [abs_sub_comm]
  exact r3.trans (two_zpow_le (by omega))

end Lis
