import Verif.Lemmas.Quad3
import Verif.Spec.QuadVec
import Mathlib.Algebra.BigOperators.Intervals
import Mathlib.Algebra.Order.BigOperators.Group.Finset
import Mathlib.Algebra.BigOperators.Ring.Finset

namespace Lis
open Finset

section plumbing
variable {R : Type}

def QVec.set (x : QVec R) (i : ℕ) (q : QD R) : QVec R := ⟨x.hi.set i q.hi, x.lo.set i q.lo⟩

theorem QVec.rd_eq {n i : ℕ} {x : QVec R} (h : x.Fits n) (hi : i < n) : x.rd i = some (x.get i) := by
  unfold QVec.rd Arr.rd
  rw [if_pos (lt_of_lt_of_le hi h.1), if_pos (lt_of_lt_of_le hi h.2)]
  rfl
theorem QVec.wr_eq {n i : ℕ} {x : QVec R} (h : x.Fits n) (hi : i < n) (q : QD R) : x.wr i q = some (x.set i q) := by
  unfold QVec.wr Arr.wr
  rw [if_pos (lt_of_lt_of_le hi h.1), if_pos (lt_of_lt_of_le hi h.2)]
  rfl
theorem QVec.set_fits {n i : ℕ} {x : QVec R} (h : x.Fits n) (q : QD R) : (x.set i q).Fits n := h
theorem QVec.get_set (x : QVec R) (i j : ℕ) (q : QD R) : (x.set i q).get j = if j = i then q else x.get j := by
  unfold QVec.set QVec.get Arr.set
  by_cases h : j = i
  · simp [h]
  · simp [h]

/-- each iteration updates its own element -/
theorem Ok_qmap {n : ℕ} {y0 : QVec R} {f : ℕ → QVec R → Option (QVec R)} (g : ℕ → QD R → QD R) (hy : y0.Fits n)
    (hs : ∀ i y, i < n → y.Fits n → f i y = some (y.set i (g i (y.get i)))) :
    Ok (loop 0 n y0 f) fun y => y.Fits n ∧ (∀ i, i < n → y.get i = g i (y0.get i)) ∧ ∀ i, n ≤ i → y.get i = y0.get i := by
  refine Ok_loop_le (fun k y => y.Fits n ∧ (∀ i, i < k → y.get i = g i (y0.get i)) ∧ ∀ i, k ≤ i → y.get i = y0.get i)
    (Nat.zero_le _) ⟨hy, by omega, fun _ _ => rfl⟩ ?_ ?_
  · rintro k y - hk ⟨h1, h2, h3⟩
    rw [hs k y hk h1, Ok_some]
    refine ⟨h1, fun i hi => ?_, fun i hi => ?_⟩
    · rw [QVec.get_set]
      split_ifs with e
      · rw [e, h3 k (le_refl _)]
      · exact h2 i (by omega)
    · rw [QVec.get_set, if_neg (by omega)]
      exact h3 i (by omega)
  · rintro y h; exact h

end plumbing

section eqs
variable {R : Type} (F : Fp R) (C two : R) (junk : QSt R)

theorem fmaToA_eq (a b c : QD R) : fmaToA F C junk a b c = lisQuadAdd F false junk a (lisQuadMul F C junk b c) := rfl
theorem fmaToD_eq (a b c : QD R) : fmaToD F C junk a b c = lisQuadAdd F false junk a (lisQuadMul F C junk b c) := rfl
theorem fmaToC_eq (a b c : QD R) : fmaToC F C junk a b c = lisQuadAdd F false junk a (lisQuadMul F C junk b c) := rfl
theorem fmadToA_eq (a b : QD R) (c : R) : fmadToA F C junk a b c = lisQuadAdd F false junk a (lisQuadMulD F C junk b c) := rfl
theorem fsaToA_eq (a b : QD R) : fsaToA F C two junk a b = lisQuadAdd F false junk a (lisQuadSqr F C two junk b) := rfl
theorem mulToB_eq (b c : QD R) : mulToB F C junk b c = lisQuadMul F C junk b c := rfl
theorem muldToB_eq (b : QD R) (c : R) : muldToB F C junk b c = lisQuadMulD F C junk b c := rfl
theorem divToC_eq (b c : QD R) : divToC F C junk b c = lisQuadDiv F C junk b c := rfl
end eqs

variable {K : Type} [Field K] [LinearOrder K] [IsStrictOrderedRing K]


variable [FloorRing K] {p : ℕ} {emin : ℤ} {rnd : K → K}

theorem splitHi_zero (h : rnd 0 = 0) (C : K) : splitHi rnd C 0 = 0 := by unfold splitHi; simp [h]
theorem prodErr_zero_left (h : rnd 0 = 0) (C y : K) : prodErr rnd C 0 y = 0 := by
  unfold prodErr; simp [splitHi_zero h, h]
theorem prodErr_zero_right (h : rnd 0 = 0) (C x : K) : prodErr rnd C x 0 = 0 := by
  unfold prodErr; simp [splitHi_zero h, h]
theorem sqrErr_zero (h : rnd 0 = 0) (C : K) : sqrErr rnd C 0 = 0 := by
  unfold sqrErr; simp [splitHi_zero h, h]

theorem Nearest.zero (N : Nearest p emin rnd) : rnd 0 = 0 := N.exact IsFloat.zero

theorem QD.Close.zero (hp : 1 ≤ p) {q : QD K} (h : q.Close p emin) (h0 : q.hi = 0) : q.lo = 0 := by
  have := h.rel hp
  rw [h0, abs_zero, mul_zero] at this
  exact abs_nonpos_iff.1 this

theorem norm_zero (N : Nearest p emin rnd) : (⟨0, 0⟩ : QD K).Norm p emin rnd :=
  ⟨IsFloat.zero, IsFloat.zero, by simp [N.zero]⟩

theorem quad_mul_safe (N : Nearest p emin rnd) {s : ℕ} (hs : SplitOk p s) (sq : K → K) (junk : QSt K) {b c : QD K}
    (hb : b.Close p emin) (hc : c.Close p emin) (h : SafeMul p emin b.hi c.hi) :
    (lisQuadMul (fpOf rnd sq) (2 ^ s + 1) junk b c).Norm p emin rnd ∧
    |(lisQuadMul (fpOf rnd sq) (2 ^ s + 1) junk b c).val - b.val * c.val| ≤ 9 * 2 ^ (-(2 * p : ℤ)) * |b.hi * c.hi| := by
  have hp1 : 1 ≤ p := by have := hs.lt; omega
  rcases h with h | h | ⟨h1, h2, h3⟩
  · have hl := hb.zero hp1 h
    rw [lisQuadMul_eq]
    simp only [h, hl, zero_mul, prodErr_zero_left N.zero, N.zero, add_zero, fastErr, sub_zero]
    exact ⟨norm_zero N, by simp [QD.val, h, hl]⟩
  · have hl := hc.zero hp1 h
    rw [lisQuadMul_eq]
    simp only [h, hl, mul_zero, prodErr_zero_right N.zero, N.zero, add_zero, fastErr, sub_zero]
    exact ⟨norm_zero N, by simp [QD.val, h, hl]⟩
  · exact quad_mul_close N hs sq junk hb hc h1 h2 h3

theorem quad_muld_safe (N : Nearest p emin rnd) {s : ℕ} (hs : SplitOk p s) (sq : K → K) (junk : QSt K) {b : QD K} {c : K}
    (hb : b.Close p emin) (hc : IsFloat p emin c) (h : SafeMul p emin b.hi c) :
    (lisQuadMulD (fpOf rnd sq) (2 ^ s + 1) junk b c).Norm p emin rnd ∧
    |(lisQuadMulD (fpOf rnd sq) (2 ^ s + 1) junk b c).val - b.val * c| ≤ 3 * 2 ^ (-(2 * p : ℤ)) * |b.hi * c| := by
  have hp1 : 1 ≤ p := by have := hs.lt; omega
  rcases h with h | h | ⟨h1, h2, h3⟩
  · have hl := hb.zero hp1 h
    rw [lisQuadMulD_eq]
    simp only [h, hl, zero_mul, prodErr_zero_left N.zero, N.zero, add_zero, fastErr, sub_zero]
    exact ⟨norm_zero N, by simp [QD.val, h, hl]⟩
  · rw [lisQuadMulD_eq]
    simp only [h, mul_zero, prodErr_zero_right N.zero, N.zero, add_zero, fastErr, sub_zero]
    exact ⟨norm_zero N, by simp [QD.val]⟩
  · exact quad_muld_close N hs sq junk hb hc h1 h2 h3

theorem quad_sqr_safe (N : Nearest p emin rnd) {s : ℕ} (hs : SplitOk p s) (sq : K → K) (junk : QSt K) {b : QD K}
    (hb : b.Close p emin) (h : SafeMul p emin b.hi b.hi) :
    (lisQuadSqr (fpOf rnd sq) (2 ^ s + 1) 2 junk b).Norm p emin rnd ∧
    |(lisQuadSqr (fpOf rnd sq) (2 ^ s + 1) 2 junk b).val - b.val * b.val| ≤ 11 * 2 ^ (-(2 * p : ℤ)) * |b.hi * b.hi| := by
  have hp1 : 1 ≤ p := by have := hs.lt; omega
  have key : b.hi = 0 ∨ 2 ^ (emin + p - 1) ≤ |b.hi| ∧ 2 ^ (emin + 2 * p) ≤ |b.hi * b.hi| := by
    rcases h with h | h | ⟨h1, h2, h3⟩
    · exact Or.inl h
    · exact Or.inl h
    · exact Or.inr ⟨h1, h3⟩
  rcases key with h | ⟨h1, h3⟩
  · have hl := hb.zero hp1 h
    rw [lisQuadSqr_eq]
    simp only [h, hl, mul_zero, sqrErr_zero N.zero, N.zero, add_zero, fastErr, sub_zero]
    exact ⟨norm_zero N, by simp [QD.val, h, hl]⟩
  · exact quad_sqr_close N hs sq junk hb h1 h3

theorem two_neg_small (hp8 : 8 ≤ p) : ∃ u : K, 0 < u ∧ u ≤ 1 / 256 ∧ u = 2 ^ (-(p : ℤ)) ∧ (2 : K) ^ (-(2 * p : ℤ)) = u * u := by
  refine ⟨2 ^ (-(p : ℤ)), two_zpow_pos _, ?_, rfl, ?_⟩
  · have : (2 : K) ^ (-(p : ℤ)) ≤ 2 ^ (-8 : ℤ) := two_zpow_le (by omega)
    refine this.trans ?_; norm_num
  · rw [← zpow_add₀ (by norm_num)]; congr 1; ring

/-- high part against value -/
theorem QD.Close.hi_le (hp8 : 8 ≤ p) {q : QD K} (h : q.Close p emin) :
    |q.hi| ≤ 256 / 255 * |q.val| ∧ |q.val| ≤ 257 / 256 * |q.hi| := by
  obtain ⟨u, u0, u1, hu, -⟩ := two_neg_small (K := K) hp8
  have h1 := h.rel (by omega)
  rw [← hu] at h1
  have h2 := mul_le_mul_of_nonneg_right u1 (abs_nonneg q.hi)
  have h3 : |q.hi| ≤ |q.val| + |q.lo| := by
    have := abs_sub q.val q.lo
    rwa [QD.val, add_sub_cancel_right] at this
  have h4 : |q.val| ≤ |q.hi| + |q.lo| := abs_add_le _ _
  constructor <;> linarith

/-- one multiply-add: `m` is the product with error `e9 · u²`, `a` the sum -/
theorem fma_bound (hp8 : 8 ≤ p) {d m a : QD K} {t w e9 : K} (hm : m.Close p emin)
    (h9 : 0 ≤ e9) (h9' : e9 ≤ 11) (ht : |t| ≤ 17 / 16 * w)
    (h1 : |m.val - t| ≤ e9 * 2 ^ (-(2 * p : ℤ)) * w)
    (h2 : |a.val - (d.val + m.val)| ≤ 6 * 2 ^ (-(2 * p : ℤ)) * max |d.hi| |m.hi|) :
    |a.val - (d.val + t)| ≤ 2 ^ (-(2 * p : ℤ)) * (6 * |d.hi| + (e9 + 7) * w) := by
  obtain ⟨u, u0, u1, hu, uu⟩ := two_neg_small (K := K) hp8
  rw [uu] at h1 h2 ⊢
  have w0 : 0 ≤ w := by have := abs_nonneg t; linarith
  have uu0 : 0 ≤ u * u := mul_nonneg u0.le u0.le
  have uu1 : u * u ≤ 1 / 65536 := by nlinarith
  have m1 := (hm.hi_le hp8).1
  have m2 : |m.val| ≤ 17 / 16 * w + 1 / 4096 * w := by
    have := abs_add_le (m.val - t) t
    rw [sub_add_cancel] at this
    have : e9 * (u * u) * w ≤ 1 / 4096 * w := by
      refine mul_le_mul_of_nonneg_right ?_ w0
      nlinarith
    linarith
  have m3 : |m.hi| ≤ 7 / 6 * w := by linarith
  have hmax : max |d.hi| |m.hi| ≤ |d.hi| + 7 / 6 * w := max_le (by linarith) (by linarith [abs_nonneg d.hi])
  have h3 := mul_le_mul_of_nonneg_left hmax (mul_nonneg (by norm_num : (0 : K) ≤ 6) uu0)
  have h4 := abs_add_le (a.val - (d.val + m.val)) (m.val - t)
  rw [show a.val - (d.val + m.val) + (m.val - t) = a.val - (d.val + t) by ring] at h4
  linarith

/-- a running sum of `m` terms with exact value `T`, the moduli adding up to `W` -/
structure AccInv (p : ℕ) (emin : ℤ) (rnd : K → K) (m : ℕ) (T W : K) (d : QD K) : Prop where
  norm : d.Norm p emin rnd
  bnd : |T| ≤ 17 / 16 * W
  err : |d.val - T| ≤ 18 * (m : K) * 2 ^ (-(2 * p : ℤ)) * W

theorem AccInv.zero (N : Nearest p emin rnd) : AccInv p emin rnd 0 0 0 ⟨0, 0⟩ :=
  ⟨norm_zero N, by simp, by simp [QD.val]⟩

/-- one more term -/
theorem AccInv.step (N : Nearest p emin rnd) (hp8 : 8 ≤ p) {T W t w : K} {m : ℕ}
    (hn : (m : K) * 2 ^ (-(2 * p : ℤ)) ≤ 1 / 256) {d d' : QD K}
    (ht : |t| ≤ 17 / 16 * w) (h : AccInv p emin rnd m T W d) (hN : d'.Norm p emin rnd)
    (hs : |d'.val - (d.val + t)| ≤ 2 ^ (-(2 * p : ℤ)) * (6 * |d.hi| + 18 * w)) : AccInv p emin rnd (m + 1) (T + t) (W + w) d' := by
  have hT := h.bnd
  refine ⟨hN, ?_, ?_⟩
  · have := abs_add_le T t
    linarith
  have ih := h.err
  obtain ⟨v, hv⟩ : ∃ v : K, v = 2 ^ (-(2 * p : ℤ)) := ⟨_, rfl⟩
  have v0 : 0 < v := hv ▸ two_zpow_pos _
  rw [← hv] at hn hs ih ⊢
  have w0 : 0 ≤ w := by have := abs_nonneg t; linarith
  have S0 : 0 ≤ W := by have := abs_nonneg T; linarith
  have c0 : (0 : K) ≤ (m : K) := Nat.cast_nonneg _
  have hkn : 18 * (m : K) * v ≤ 18 / 256 := by linarith
  have h1 := mul_le_mul_of_nonneg_right hkn S0
  have h2 : |d.val| ≤ 182 / 160 * W := by
    have := abs_add_le (d.val - T) T
    rw [sub_add_cancel] at this
    linarith
  have h3 := ((h.norm.close (by omega) N).hi_le hp8).1
  have h4 : |d.hi| ≤ 3 / 2 * W := by linarith
  have h6 : v * (6 * |d.hi| + 18 * w) ≤ v * (18 * W + 18 * w) := mul_le_mul_of_nonneg_left (by linarith) v0.le
  have h7 : 0 ≤ 18 * (m : K) * v * w := mul_nonneg (mul_nonneg (mul_nonneg (by norm_num) c0) v0.le) w0
  have e : d'.val - (T + t) = (d'.val - (d.val + t)) + (d.val - T) := by ring
  rw [e]
  refine (abs_add_le _ _).trans ?_
  push_cast
  linarith

/-- the multiply-add of the code -/
theorem fma_accurate (N : Nearest p emin rnd) {s : ℕ} (hs : SplitOk p s) (hp8 : 8 ≤ p) (sq : K → K) (junk : QSt K) {a b c : QD K}
    (ha : a.Norm p emin rnd) (hb : b.Norm p emin rnd) (hc : c.Norm p emin rnd) (h : SafeMul p emin b.hi c.hi) :
    (lisQuadAdd (fpOf rnd sq) false junk a (lisQuadMul (fpOf rnd sq) (2 ^ s + 1) junk b c)).Norm p emin rnd ∧
    |b.val * c.val| ≤ 17 / 16 * |b.hi * c.hi| ∧
    |(lisQuadAdd (fpOf rnd sq) false junk a (lisQuadMul (fpOf rnd sq) (2 ^ s + 1) junk b c)).val - (a.val + b.val * c.val)| ≤
      2 ^ (-(2 * p : ℤ)) * (6 * |a.hi| + 16 * |b.hi * c.hi|) := by
  have hp1 : 1 ≤ p := by omega
  obtain ⟨m1, m2⟩ := quad_mul_safe N hs sq junk (hb.close hp1 N) (hc.close hp1 N) h
  obtain ⟨s1, s2⟩ := quad_add_close N (by omega) sq junk (ha.close hp1 N) (m1.close hp1 N)
  have hbc : |b.val * c.val| ≤ 17 / 16 * |b.hi * c.hi| := by
    have h1 := ((hb.close hp1 N).hi_le hp8).2
    have h2 := ((hc.close hp1 N).hi_le hp8).2
    rw [abs_mul, abs_mul]
    have := mul_le_mul h1 h2 (abs_nonneg _) (by positivity)
    have := mul_nonneg (abs_nonneg b.hi) (abs_nonneg c.hi)
    linarith
  refine ⟨s1, hbc, ?_⟩
  have := fma_bound hp8 (m1.close hp1 N) (by norm_num) (by norm_num) hbc m2 s2
  norm_num at this ⊢
  exact this

theorem fmad_accurate (N : Nearest p emin rnd) {s : ℕ} (hs : SplitOk p s) (hp8 : 8 ≤ p) (sq : K → K) (junk : QSt K) {a b : QD K}
    {c : K} (ha : a.Norm p emin rnd) (hb : b.Norm p emin rnd) (hc : IsFloat p emin c) (h : SafeMul p emin b.hi c) :
    (lisQuadAdd (fpOf rnd sq) false junk a (lisQuadMulD (fpOf rnd sq) (2 ^ s + 1) junk b c)).Norm p emin rnd ∧
    |b.val * c| ≤ 17 / 16 * |b.hi * c| ∧
    |(lisQuadAdd (fpOf rnd sq) false junk a (lisQuadMulD (fpOf rnd sq) (2 ^ s + 1) junk b c)).val - (a.val + b.val * c)| ≤
      2 ^ (-(2 * p : ℤ)) * (6 * |a.hi| + 10 * |b.hi * c|) := by
  have hp1 : 1 ≤ p := by omega
  obtain ⟨m1, m2⟩ := quad_muld_safe N hs sq junk (hb.close hp1 N) hc h
  obtain ⟨s1, s2⟩ := quad_add_close N (by omega) sq junk (ha.close hp1 N) (m1.close hp1 N)
  have hbc : |b.val * c| ≤ 17 / 16 * |b.hi * c| := by
    have h1 := ((hb.close hp1 N).hi_le hp8).2
    rw [abs_mul, abs_mul]
    have := mul_le_mul_of_nonneg_right h1 (abs_nonneg c)
    have := mul_nonneg (abs_nonneg b.hi) (abs_nonneg c)
    linarith
  refine ⟨s1, hbc, ?_⟩
  have := fma_bound hp8 (m1.close hp1 N) (by norm_num) (by norm_num) hbc m2 s2
  norm_num at this ⊢
  exact this

theorem fsa_accurate (N : Nearest p emin rnd) {s : ℕ} (hs : SplitOk p s) (hp8 : 8 ≤ p) (sq : K → K) (junk : QSt K) {a b : QD K}
    (ha : a.Norm p emin rnd) (hb : b.Norm p emin rnd) (h : SafeMul p emin b.hi b.hi) :
    (lisQuadAdd (fpOf rnd sq) false junk a (lisQuadSqr (fpOf rnd sq) (2 ^ s + 1) 2 junk b)).Norm p emin rnd ∧
    |b.val * b.val| ≤ 17 / 16 * |b.hi * b.hi| ∧
    |(lisQuadAdd (fpOf rnd sq) false junk a (lisQuadSqr (fpOf rnd sq) (2 ^ s + 1) 2 junk b)).val - (a.val + b.val * b.val)| ≤
      2 ^ (-(2 * p : ℤ)) * (6 * |a.hi| + 18 * |b.hi * b.hi|) := by
  have hp1 : 1 ≤ p := by omega
  obtain ⟨m1, m2⟩ := quad_sqr_safe N hs sq junk (hb.close hp1 N) h
  obtain ⟨s1, s2⟩ := quad_add_close N (by omega) sq junk (ha.close hp1 N) (m1.close hp1 N)
  have hbc : |b.val * b.val| ≤ 17 / 16 * |b.hi * b.hi| := by
    have h1 := ((hb.close hp1 N).hi_le hp8).2
    rw [abs_mul, abs_mul]
    have := mul_le_mul h1 h1 (abs_nonneg _) (by positivity)
    have := mul_nonneg (abs_nonneg b.hi) (abs_nonneg b.hi)
    linarith
  refine ⟨s1, hbc, ?_⟩
  have := fma_bound hp8 (m1.close hp1 N) (by norm_num) (by norm_num) hbc m2 s2
  norm_num at this ⊢
  exact this

end Lis
