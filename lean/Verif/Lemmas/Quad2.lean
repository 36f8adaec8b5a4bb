import Verif.Lemmas.Quad

namespace Lis
variable {K : Type} [Field K] [LinearOrder K] [IsStrictOrderedRing K] [FloorRing K] {p : ℕ} {emin : ℤ} {rnd : K → K}

theorem two_zpow_split (k : ℤ) (p : ℕ) : (2 : K) ^ (k - p) = 2 * (2 ^ (-(2 * p : ℤ)) * 2 ^ (k + p - 1)) := by
  rw [← zpow_add₀ (by norm_num), ← two_zpow_succ]; congr 1; ring

/-- result of the last step: `hi` is the sum rounded, `lo` the error -/
theorem norm_of_fast (N : Nearest p emin rnd) {a e : K} (h : fastErr rnd a e = a + e - rnd (a + e)) :
    (⟨rnd (a + e), fastErr rnd a e⟩ : QD K).Norm p emin rnd ∧ (⟨rnd (a + e), fastErr rnd a e⟩ : QD K).val = a + e := by
  have hv : rnd (a + e) + fastErr rnd a e = a + e := by rw [h]; ring
  exact ⟨⟨N.float _, N.float _, by simp only [hv]⟩, hv⟩

theorem quad_add_close (N : Nearest p emin rnd) (hp : 4 ≤ p) (sq : K → K) (junk : QSt K) {b c : QD K}
    (hb : b.Close p emin) (hc : c.Close p emin) :
    (lisQuadAdd (fpOf rnd sq) false junk b c).Norm p emin rnd ∧
    |(lisQuadAdd (fpOf rnd sq) false junk b c).val - (b.val + c.val)| ≤ 6 * 2 ^ (-(2 * p : ℤ)) * max |b.hi| |c.hi| := by
  rw [lisQuadAdd_eq]
  obtain ⟨k, k1, k2, k3, k4, k5⟩ := quad_add_aux N hp hb hc rfl
  obtain ⟨h1, h2⟩ := norm_of_fast N k3
  refine ⟨h1, ?_⟩
  simp only
  rw [h2]
  have h0 : (0 : K) ≤ 6 * 2 ^ (-(2 * p : ℤ)) := mul_nonneg (by norm_num) (two_zpow_pos _).le
  rcases k2 with rfl | k2
  · rw [k5 (by omega), sub_self, abs_zero]
    exact mul_nonneg h0 (le_max_of_le_left (abs_nonneg _))
  · refine k4.trans ?_
    rw [two_zpow_split]
    have := mul_le_mul_of_nonneg_left k2 h0
    linarith

theorem HasExp.of_normal (hp : 1 ≤ p) {x : K} (h : IsFloat p emin x) (hx : 2 ^ (emin + p - 1) ≤ |x|) :
    ∃ k, emin ≤ k ∧ HasExp p k x := by
  obtain ⟨k, h1, h2, h3, h4⟩ := h.canon hp
  refine ⟨k, h1, h2, ?_, h3⟩
  rcases h4 with rfl | h4
  · exact hx
  · exact h4

/-- absolute rounding error bounded by a power of two -/
theorem mul_le_two_zpow {x y : K} {i l : ℤ} (hx : |x| ≤ 2 ^ i) (hy : |y| ≤ 2 ^ l) : |x * y| ≤ 2 ^ (i + l) := by
  rw [abs_mul, zpow_add₀ (by norm_num)]
  exact mul_le_mul hx hy (abs_nonneg _) (two_zpow_pos _).le

theorem prod_exp {a b : K} {j k g : ℤ} (ha : HasExp p j a) (hb : HasExp p k b) (h : 2 ^ (g + 2 * p) ≤ |a * b|) : g < j + k := by
  have h2 : |a * b| < 2 ^ (j + k + 2 * p) := by
    rw [abs_mul, show j + k + 2 * (p : ℤ) = (j + p) + (k + p) by ring, zpow_add₀ (by norm_num)]
    exact mul_lt_mul'' ha.hi hb.hi (abs_nonneg _) (abs_nonneg _)
  have := of_two_zpow_lt (lt_of_le_of_lt h h2)
  omega

theorem prod_unit {a b : K} {j k : ℤ} (ha : HasExp p j a) (hb : HasExp p k b) :
    (2 : K) ^ (j + k) ≤ 4 * 2 ^ (-(2 * p : ℤ)) * |a * b| := by
  have h1 : (2 : K) ^ (j + k + 2 * p - 2) ≤ |a * b| := by
    rw [abs_mul, show j + k + 2 * (p : ℤ) - 2 = (j + p - 1) + (k + p - 1) by ring, zpow_add₀ (by norm_num)]
    exact mul_le_mul ha.lo hb.lo (two_zpow_pos _).le (abs_nonneg _)
  have h2 : (2 : K) ^ (j + k) = 4 * 2 ^ (-(2 * p : ℤ)) * 2 ^ (j + k + 2 * p - 2) := by
    rw [show (4 : K) = 2 ^ (2 : ℤ) by norm_num, ← zpow_add₀ (by norm_num), ← zpow_add₀ (by norm_num)]
    congr 1; ring
  rw [h2]
  exact mul_le_mul_of_nonneg_left h1 (mul_nonneg (by norm_num) (two_zpow_pos _).le)

/-- the parameters for which the splitting works, e.g. `p = 53`, `s = 27` -/
structure SplitOk (p s : ℕ) : Prop where
  one : 1 ≤ s
  lt : s + 2 ≤ p
  half : p ≤ 2 * s
  half' : 2 * s ≤ p + 2

theorem quad_mul_close (N : Nearest p emin rnd) {s : ℕ} (hs : SplitOk p s) (sq : K → K) (junk : QSt K) {b c : QD K}
    (hb : b.Close p emin) (hc : c.Close p emin) (nb : 2 ^ (emin + p - 1) ≤ |b.hi|) (nc : 2 ^ (emin + p - 1) ≤ |c.hi|)
    (hbc : 2 ^ (emin + 2 * p) ≤ |b.hi * c.hi|) :
    (lisQuadMul (fpOf rnd sq) (2 ^ s + 1) junk b c).Norm p emin rnd ∧
    |(lisQuadMul (fpOf rnd sq) (2 ^ s + 1) junk b c).val - b.val * c.val| ≤ 9 * 2 ^ (-(2 * p : ℤ)) * |b.hi * c.hi| := by
  have hp1 : 1 ≤ p := by have := hs.lt; omega
  have hp3 : 3 ≤ p := by have := hs.lt; have := hs.one; omega
  obtain ⟨i, i1, i2⟩ := HasExp.of_normal hp1 hb.fhi nb
  obtain ⟨j, j1, j2⟩ := HasExp.of_normal hp1 hc.fhi nc
  have hij := prod_exp i2 j2 hbc
  have hu := prod_unit i2 j2
  have bl := hb.lo_le i i1 i2.grid i2.hi
  have cl := hc.lo_le j j1 j2.grid j2.hi
  obtain ⟨q1, q2, q3, q4, q5⟩ := prod_bounds N hp1 (by omega) i2 j2
  have pe := prodErr_exact N hs.one hs.lt hs.half hs.half' i1 j1 (by omega) i2 j2
  rw [lisQuadMul_eq]
  obtain ⟨r, hr⟩ : ∃ r, r = rnd (b.hi * c.hi) := ⟨_, rfl⟩
  obtain ⟨e0, he0⟩ : ∃ e0, e0 = prodErr rnd (2 ^ s + 1) b.hi c.hi := ⟨_, rfl⟩
  obtain ⟨x, hx⟩ : ∃ x, x = rnd (b.hi * c.lo) := ⟨_, rfl⟩
  obtain ⟨y, hy⟩ : ∃ y, y = rnd (b.lo * c.hi) := ⟨_, rfl⟩
  obtain ⟨e1, he1⟩ : ∃ e1, e1 = rnd (e0 + x) := ⟨_, rfl⟩
  obtain ⟨e, he⟩ : ∃ e, e = rnd (e1 + y) := ⟨_, rfl⟩
  simp only [← hr, ← he0, ← hx, ← hy, ← he1, ← he]
  rw [← he0, ← hr] at pe
  rw [← hr] at q3 q4 q5
  have w : (2 : K) ^ (i + j + p) = 2 * 2 ^ (i + j + p - 1) := two_zpow_pred _
  have w' : (2 : K) ^ (i + j + p + 1) = 2 * 2 ^ (i + j + p) := two_zpow_succ _
  have u1 : (2 : K) ^ (i + j) = 2 * 2 ^ (i + j - 1) := two_zpow_pred _
  have u2 : (2 : K) ^ (i + j - 1) = 2 * 2 ^ (i + j - 1 - 1) := two_zpow_pred _
  have p0 := two_zpow_pos (K := K) (i + j + p - 1)
  have b0 : |e0| ≤ 2 ^ (i + j + p - 1) := by rw [pe, abs_sub_comm]; exact q3
  have bx' : |b.hi * c.lo| ≤ 2 ^ (i + j - 1 + p) := by
    have := mul_le_two_zpow i2.hi.le cl
    rwa [show i + (p : ℤ) + (j - 1) = i + j - 1 + p by ring] at this
  have by' : |b.lo * c.hi| ≤ 2 ^ (i + j - 1 + p) := by
    have := mul_le_two_zpow bl j2.hi.le
    rwa [show i - 1 + (j + (p : ℤ)) = i + j - 1 + p by ring] at this
  have ex := N.err hp1 (by omega) bx'
  have ey := N.err hp1 (by omega) by'
  have bx := N.le (isFloat_pow hp1 (by omega)) bx'
  have by2 := N.le (isFloat_pow hp1 (by omega)) by'
  rw [← hx] at ex bx
  rw [← hy] at ey by2
  rw [show i + j - 1 + (p : ℤ) = i + j + p - 1 by ring] at bx by2
  have b1' : |e0 + x| ≤ 2 ^ (i + j + p) := by
    have := abs_add_le e0 x
    linarith
  have ee1 := N.err hp1 (by omega) b1'
  have b1 := N.le (isFloat_pow hp1 (by omega)) b1'
  rw [← he1] at ee1 b1
  have b2' : |e1 + y| ≤ 2 ^ (i + j + 1 + p) := by
    rw [show i + j + 1 + (p : ℤ) = i + j + p + 1 by ring]
    have := abs_add_le e1 y
    linarith
  have ee := N.err hp1 (by omega) b2'
  have b2 := N.le (isFloat_pow hp1 (by omega)) b2'
  rw [← he] at ee b2
  rw [add_sub_cancel_right] at ee
  have ll : |b.lo * c.lo| ≤ 2 ^ (i + j - 1 - 1) := by
    have := mul_le_two_zpow bl cl
    rwa [show i - 1 + (j - 1) = i + j - 1 - 1 by ring] at this
  have fr : IsFloat p emin r := hr ▸ N.float _
  have fe : IsFloat p emin e := he ▸ N.float _
  have hf := fastErr_le N (by omega) fr fe (b2.trans ((two_zpow_le (by omega)).trans q5))
  obtain ⟨h1, h2⟩ := norm_of_fast N hf
  refine ⟨h1, ?_⟩
  rw [h2]
  have err : r + e - b.val * c.val = (e - (e1 + y)) + (y - b.lo * c.hi) + (e1 - (e0 + x)) + (x - b.hi * c.lo) - b.lo * c.lo := by
    rw [pe]; unfold QD.val; ring
  rw [err]
  rw [abs_le] at ee ey ee1 ex ll ⊢
  constructor <;> linarith

theorem quad_muld_close (N : Nearest p emin rnd) {s : ℕ} (hs : SplitOk p s) (sq : K → K) (junk : QSt K) {b : QD K} {c : K}
    (hb : b.Close p emin) (fc : IsFloat p emin c) (nb : 2 ^ (emin + p - 1) ≤ |b.hi|) (nc : 2 ^ (emin + p - 1) ≤ |c|)
    (hbc : 2 ^ (emin + 2 * p) ≤ |b.hi * c|) :
    (lisQuadMulD (fpOf rnd sq) (2 ^ s + 1) junk b c).Norm p emin rnd ∧
    |(lisQuadMulD (fpOf rnd sq) (2 ^ s + 1) junk b c).val - b.val * c| ≤ 3 * 2 ^ (-(2 * p : ℤ)) * |b.hi * c| := by
  have hp1 : 1 ≤ p := by have := hs.lt; omega
  have hp3 : 3 ≤ p := by have := hs.lt; have := hs.one; omega
  obtain ⟨i, i1, i2⟩ := HasExp.of_normal hp1 hb.fhi nb
  obtain ⟨j, j1, j2⟩ := HasExp.of_normal hp1 fc nc
  have hij := prod_exp i2 j2 hbc
  have hu := prod_unit i2 j2
  have bl := hb.lo_le i i1 i2.grid i2.hi
  obtain ⟨q1, q2, q3, q4, q5⟩ := prod_bounds N hp1 (by omega) i2 j2
  have pe := prodErr_exact N hs.one hs.lt hs.half hs.half' i1 j1 (by omega) i2 j2
  rw [lisQuadMulD_eq]
  obtain ⟨r, hr⟩ : ∃ r, r = rnd (b.hi * c) := ⟨_, rfl⟩
  obtain ⟨e0, he0⟩ : ∃ e0, e0 = prodErr rnd (2 ^ s + 1) b.hi c := ⟨_, rfl⟩
  obtain ⟨y, hy⟩ : ∃ y, y = rnd (b.lo * c) := ⟨_, rfl⟩
  obtain ⟨e, he⟩ : ∃ e, e = rnd (e0 + y) := ⟨_, rfl⟩
  simp only [← hr, ← he0, ← hy, ← he]
  rw [← he0, ← hr] at pe
  rw [← hr] at q3 q4 q5
  have w : (2 : K) ^ (i + j + p) = 2 * 2 ^ (i + j + p - 1) := two_zpow_pred _
  have u1 : (2 : K) ^ (i + j) = 2 * 2 ^ (i + j - 1) := two_zpow_pred _
  have u2 : (2 : K) ^ (i + j - 1) = 2 * 2 ^ (i + j - 1 - 1) := two_zpow_pred _
  have b0 : |e0| ≤ 2 ^ (i + j + p - 1) := by rw [pe, abs_sub_comm]; exact q3
  have by' : |b.lo * c| ≤ 2 ^ (i + j - 1 + p) := by
    have := mul_le_two_zpow bl j2.hi.le
    rwa [show i - 1 + (j + (p : ℤ)) = i + j - 1 + p by ring] at this
  have ey := N.err hp1 (by omega) by'
  have by2 := N.le (isFloat_pow hp1 (by omega)) by'
  rw [← hy] at ey by2
  rw [show i + j - 1 + (p : ℤ) = i + j + p - 1 by ring] at by2
  have b1' : |e0 + y| ≤ 2 ^ (i + j + p) := by
    have := abs_add_le e0 y
    linarith
  have ee := N.err hp1 (by omega) b1'
  have b1 := N.le (isFloat_pow hp1 (by omega)) b1'
  rw [← he] at ee b1
  have fr : IsFloat p emin r := hr ▸ N.float _
  have fe : IsFloat p emin e := he ▸ N.float _
  have hf := fastErr_le N (by omega) fr fe (b1.trans ((two_zpow_le (by omega)).trans q5))
  obtain ⟨h1, h2⟩ := norm_of_fast N hf
  refine ⟨h1, ?_⟩
  rw [h2]
  have err : r + e - b.val * c = (e - (e0 + y)) + (y - b.lo * c) := by
    rw [pe]; unfold QD.val; ring
  rw [err]
  rw [abs_le] at ee ey ⊢
  constructor <;> linarith

theorem quad_sqr_close (N : Nearest p emin rnd) {s : ℕ} (hs : SplitOk p s) (sq : K → K) (junk : QSt K) {b : QD K}
    (hb : b.Close p emin) (nb : 2 ^ (emin + p - 1) ≤ |b.hi|)
    (hbc : 2 ^ (emin + 2 * p) ≤ |b.hi * b.hi|) :
    (lisQuadSqr (fpOf rnd sq) (2 ^ s + 1) 2 junk b).Norm p emin rnd ∧
    |(lisQuadSqr (fpOf rnd sq) (2 ^ s + 1) 2 junk b).val - b.val * b.val| ≤ 11 * 2 ^ (-(2 * p : ℤ)) * |b.hi * b.hi| := by
  have hp1 : 1 ≤ p := by have := hs.lt; omega
  have hp3 : 3 ≤ p := by have := hs.lt; have := hs.one; omega
  obtain ⟨i, i1, i2⟩ := HasExp.of_normal hp1 hb.fhi nb
  have hij := prod_exp i2 i2 hbc
  have hu := prod_unit i2 i2
  have bl := hb.lo_le i i1 i2.grid i2.hi
  obtain ⟨q1, q2, q3, q4, q5⟩ := prod_bounds N hp1 (by omega) i2 i2
  have pe := sqrErr_exact N hs.one hs.lt hs.half hs.half' i1 (by omega) i2
  rw [lisQuadSqr_eq]
  have d2 : rnd (2 * b.hi) = 2 * b.hi := by
    refine N.exact (isFloat_of_grid hp1 (by omega : emin ≤ i + 1) ?_ ?_)
    · obtain ⟨m, hm⟩ := i2.grid
      exact ⟨m, by rw [hm, two_zpow_succ]; ring⟩
    · rw [abs_mul, abs_two, show i + 1 + (p : ℤ) = i + p + 1 by ring, two_zpow_succ]
      linarith [i2.hi]
  rw [d2]
  obtain ⟨r, hr⟩ : ∃ r, r = rnd (b.hi * b.hi) := ⟨_, rfl⟩
  obtain ⟨e0, he0⟩ : ∃ e0, e0 = sqrErr rnd (2 ^ s + 1) b.hi := ⟨_, rfl⟩
  obtain ⟨x, hx⟩ : ∃ x, x = rnd (2 * b.hi * b.lo) := ⟨_, rfl⟩
  obtain ⟨y, hy⟩ : ∃ y, y = rnd (b.lo * b.lo) := ⟨_, rfl⟩
  obtain ⟨e1, he1⟩ : ∃ e1, e1 = rnd (e0 + x) := ⟨_, rfl⟩
  obtain ⟨e, he⟩ : ∃ e, e = rnd (e1 + y) := ⟨_, rfl⟩
  simp only [← hr, ← he0, ← hx, ← hy, ← he1, ← he]
  rw [← he0, ← hr] at pe
  rw [← hr] at q3 q4 q5
  have w : (2 : K) ^ (i + i + p) = 2 * 2 ^ (i + i + p - 1) := two_zpow_pred _
  have w' : (2 : K) ^ (i + i + p + 1) = 2 * 2 ^ (i + i + p) := two_zpow_succ _
  have u1 : (2 : K) ^ (i + i) = 2 * 2 ^ (i + i - 1) := two_zpow_pred _
  have u2 : (2 : K) ^ (i + i - 1) = 2 * 2 ^ (i + i - 1 - 1) := two_zpow_pred _
  have p0 := two_zpow_pos (K := K) (i + i + p - 1)
  have b0 : |e0| ≤ 2 ^ (i + i + p - 1) := by rw [pe, abs_sub_comm]; exact q3
  have bx' : |2 * b.hi * b.lo| ≤ 2 ^ (i + i + p) := by
    have := mul_le_two_zpow i2.hi.le bl
    rw [show i + (p : ℤ) + (i - 1) = i + i + p - 1 by ring] at this
    rw [mul_assoc, abs_mul, abs_two]
    linarith
  have ly : |b.lo * b.lo| ≤ 2 ^ (i + i - 1 - 1) := by
    have := mul_le_two_zpow bl bl
    rwa [show i - 1 + (i - 1) = i + i - 1 - 1 by ring] at this
  have ex := N.err hp1 (by omega) bx'
  have ey := N.err hp1 (by omega : emin ≤ i + i - 1) (ly.trans (two_zpow_le (by omega)))
  have bx := N.le (isFloat_pow hp1 (by omega)) bx'
  have by2 := N.le (isFloat_pow hp1 (by omega : emin ≤ i + i - 1)) (ly.trans (two_zpow_le (by omega)))
  rw [← hx] at ex bx
  rw [← hy] at ey by2
  have by3 : |y| ≤ 2 ^ (i + i + p - 1) := by2.trans (two_zpow_le (by omega))
  have fl3 : IsFloat p emin ((3 : K) * 2 ^ (i + i + p - 1)) :=
    isFloat_of_grid hp1 (by omega : emin ≤ i + i + p - 1) ⟨3, by simp⟩ (by
      rw [abs_mul, abs_of_pos (by norm_num : (0 : K) < 3), abs_of_pos p0]
      have : (2 : K) ^ (i + i + p - 1 + 2) ≤ 2 ^ (i + i + p - 1 + p) := two_zpow_le (by omega)
      rw [zpow_add₀ (by norm_num)] at this
      norm_num at this
      linarith)
  have b1' : |e0 + x| ≤ 3 * 2 ^ (i + i + p - 1) := by
    have := abs_add_le e0 x
    linarith
  have b1'' : |e0 + x| ≤ 2 ^ (i + i + 1 + p) := by
    rw [show i + i + 1 + (p : ℤ) = i + i + p + 1 by ring]; linarith
  have ee1 := N.err hp1 (by omega) b1''
  have b1 := N.le fl3 b1'
  rw [← he1] at ee1 b1
  have b2' : |e1 + y| ≤ 2 ^ (i + i + 1 + p) := by
    rw [show i + i + 1 + (p : ℤ) = i + i + p + 1 by ring]
    have := abs_add_le e1 y
    linarith
  have ee := N.err hp1 (by omega) b2'
  have b2 := N.le (isFloat_pow hp1 (by omega)) b2'
  rw [← he] at ee b2
  rw [add_sub_cancel_right] at ee ee1
  have fr : IsFloat p emin r := hr ▸ N.float _
  have fe : IsFloat p emin e := he ▸ N.float _
  have hf := fastErr_le N (by omega) fr fe (b2.trans ((two_zpow_le (by omega)).trans q5))
  obtain ⟨h1, h2⟩ := norm_of_fast N hf
  refine ⟨h1, ?_⟩
  rw [h2]
  have err : r + e - b.val * b.val = (e - (e1 + y)) + (y - b.lo * b.lo) + (e1 - (e0 + x)) + (x - 2 * b.hi * b.lo) := by
    rw [pe]; unfold QD.val; ring
  rw [err]
  rw [abs_le] at ee ey ee1 ex ⊢
  constructor <;> linarith

end Lis
