import Verif.Lemmas.Quad3
import Verif.Lemmas.FpRound

/-!
# C48: quadruple-precision (double-double) arithmetic

`IsFloat p emin`, `Nearest p emin rnd`, `QD.val`, `QD.Norm`: see Spec/Fp.lean.  Every rule for ties and every precision is
covered; for the type `double` `p = 53`, `emin = -1074`, `s = 27` (`SPLITTER = 2^27 + 1`).
-/

namespace Lis
variable {K : Type} [Field K] [LinearOrder K] [IsStrictOrderedRing K] [FloorRing K] {p : ℕ} {emin : ℤ} {rnd : K → K}

theorem splitOk_double : SplitOk 53 27 ∧ (2 : ℚ) ^ 27 + 1 = 134217729 := ⟨⟨by omega, by omega, by omega, by omega⟩, by norm_num⟩

/-! ## Error-free transformations -/

/-- `LIS_QUAD_TWO_SUM(b, c, r, e)`: `r` is the rounded sum and `r + e = b + c` exactly -/
theorem quad_two_sum_exact (N : Nearest p emin rnd) (hp : 3 ≤ p) (sq : K → K) (s : QSt K)
    (fb : IsFloat p emin (s .bHi)) (fc : IsFloat p emin (s .cHi)) :
    let s' := twoSum (fpOf rnd sq) (rdv .bHi) (rdv .cHi) .aHi .aLo s
    s' .aHi = rnd (s .bHi + s .cHi) ∧ s' .aHi + s' .aLo = s .bHi + s .cHi := by
  refine ⟨rfl, ?_⟩
  have : twoSum (fpOf rnd sq) (rdv .bHi) (rdv .cHi) .aHi .aLo s .aLo = sumErr rnd (s .bHi) (s .cHi) := rfl
  show rnd (s .bHi + s .cHi) + twoSum (fpOf rnd sq) (rdv .bHi) (rdv .cHi) .aHi .aLo s .aLo = _
  rw [this, sumErr_exact N hp fb fc]; ring

/-- `LIS_QUAD_TWO_DIFF` -/
theorem quad_two_diff_exact (N : Nearest p emin rnd) (hp : 3 ≤ p) (sq : K → K) (s : QSt K)
    (fb : IsFloat p emin (s .bHi)) (fc : IsFloat p emin (s .cHi)) :
    let s' := twoDiff (fpOf rnd sq) (rdv .bHi) (rdv .cHi) .aHi .aLo s
    s' .aHi = rnd (s .bHi - s .cHi) ∧ s' .aHi + s' .aLo = s .bHi - s .cHi := by
  refine ⟨rfl, ?_⟩
  have : twoDiff (fpOf rnd sq) (rdv .bHi) (rdv .cHi) .aHi .aLo s .aLo = diffErr rnd (s .bHi) (s .cHi) := rfl
  show rnd (s .bHi - s .cHi) + twoDiff (fpOf rnd sq) (rdv .bHi) (rdv .cHi) .aHi .aLo s .aLo = _
  rw [this, diffErr_exact N hp fb fc]; ring

/-- `LIS_QUAD_FAST_TWO_SUM`, the first operand not smaller -/
theorem quad_fast_two_sum_exact (N : Nearest p emin rnd) (hp : 2 ≤ p) (sq : K → K) (s : QSt K)
    (fb : IsFloat p emin (s .bHi)) (fc : IsFloat p emin (s .cHi)) (h : |s .cHi| ≤ |s .bHi|) :
    let s' := fastTwoSum (fpOf rnd sq) (rdv .bHi) (rdv .cHi) .aHi .aLo s
    s' .aHi = rnd (s .bHi + s .cHi) ∧ s' .aHi + s' .aLo = s .bHi + s .cHi := by
  refine ⟨rfl, ?_⟩
  have : fastTwoSum (fpOf rnd sq) (rdv .bHi) (rdv .cHi) .aHi .aLo s .aLo = fastErr rnd (s .bHi) (s .cHi) := rfl
  show rnd (s .bHi + s .cHi) + fastTwoSum (fpOf rnd sq) (rdv .bHi) (rdv .cHi) .aHi .aLo s .aLo = _
  rw [this, fastErr_le N hp fb fc h]; ring

/-- `LIS_QUAD_SPLIT`: the two parts add up to the operand, and each has at most half the digits
(`p - s` digits in the high part, `s - 1` and a sign in the low one) -/
theorem quad_split_exact (N : Nearest p emin rnd) {s : ℕ} (hs : SplitOk p s) (sq : K → K) (t : QSt K)
    (fb : IsFloat p emin (t .bHi)) (nb : 2 ^ (emin + p - 1) ≤ |t .bHi|) :
    let t' := quadSplit (fpOf rnd sq) (2 ^ s + 1) (rdv .bHi) .aHi .aLo t
    t' .aHi + t' .aLo = t .bHi ∧
    ∃ (k : ℤ) (m l : ℤ), t' .aHi = m * 2 ^ (k + s) ∧ t' .aLo = l * 2 ^ k ∧ |m| ≤ 2 ^ (p - s) ∧ |l| ≤ 2 ^ (s - 1) := by
  have h1 := hs.lt
  have h2 := hs.one
  obtain ⟨k, k1, k2⟩ := HasExp.of_normal (by omega) fb nb
  obtain ⟨h, e1, e2, ⟨m, g1⟩, ⟨l, g2⟩, g3, g4⟩ := split_exact N hs.one (by omega) k1 k2
  have q1 : quadSplit (fpOf rnd sq) (2 ^ s + 1) (rdv .bHi) .aHi .aLo t .aHi = h := e1
  have q2 : quadSplit (fpOf rnd sq) (2 ^ s + 1) (rdv .bHi) .aHi .aLo t .aLo = t .bHi - h := by
    rw [← e2, ← e1]; rfl
  simp only [q1, q2]
  refine ⟨by ring, k, m, l, g1, g2, ?_, ?_⟩
  · rw [g1, abs_mul, abs_of_pos (two_zpow_pos (K := K) (k + (s : ℤ)))] at g3
    have e : (2 : K) ^ (k + (p : ℤ)) = 2 ^ (p - s) * 2 ^ (k + (s : ℤ)) := by
      rw [← two_zpow_addn]; congr 1; have : ((p - s : ℕ) : ℤ) = p - s := by omega
      rw [this]; ring
    rw [e] at g3
    have := le_of_mul_le_mul_right g3 (two_zpow_pos _)
    exact_mod_cast this
  · rw [g2, abs_mul, abs_of_pos (two_zpow_pos (K := K) k)] at g4
    have e : (2 : K) ^ (k + (s : ℤ) - 1) = 2 ^ (s - 1) * 2 ^ k := by
      rw [← two_zpow_addn]; congr 1; have : ((s - 1 : ℕ) : ℤ) = s - 1 := by omega
      rw [this]; ring
    rw [e] at g4
    have := le_of_mul_le_mul_right g4 (two_zpow_pos _)
    exact_mod_cast this

/-- `LIS_QUAD_TWO_PROD`: exact when neither operand is subnormal and the product is not tiny -/
theorem quad_two_prod_exact (N : Nearest p emin rnd) {s : ℕ} (hs : SplitOk p s) (sq : K → K) (t : QSt K)
    (fb : IsFloat p emin (t .bHi)) (fc : IsFloat p emin (t .cHi))
    (nb : 2 ^ (emin + p - 1) ≤ |t .bHi|) (nc : 2 ^ (emin + p - 1) ≤ |t .cHi|) (h : 2 ^ (emin + 2 * p) ≤ |t .bHi * t .cHi|) :
    let t' := twoProd (fpOf rnd sq) (2 ^ s + 1) (rdv .bHi) (rdv .cHi) .aHi .aLo t
    t' .aHi = rnd (t .bHi * t .cHi) ∧ t' .aHi + t' .aLo = t .bHi * t .cHi := by
  refine ⟨rfl, ?_⟩
  have hp1 : 1 ≤ p := by have := hs.lt; omega
  obtain ⟨i, i1, i2⟩ := HasExp.of_normal hp1 fb nb
  obtain ⟨j, j1, j2⟩ := HasExp.of_normal hp1 fc nc
  have hij := prod_exp i2 j2 h
  have : twoProd (fpOf rnd sq) (2 ^ s + 1) (rdv .bHi) (rdv .cHi) .aHi .aLo t .aLo = prodErr rnd (2 ^ s + 1) (t .bHi) (t .cHi) := rfl
  show rnd (t .bHi * t .cHi) + twoProd (fpOf rnd sq) (2 ^ s + 1) (rdv .bHi) (rdv .cHi) .aHi .aLo t .aLo = _
  rw [this, prodErr_exact N hs.one hs.lt hs.half hs.half' i1 j1 (by omega) i2 j2]; ring

/-- `LIS_QUAD_TWO_SQR` -/
theorem quad_two_sqr_exact (N : Nearest p emin rnd) {s : ℕ} (hs : SplitOk p s) (sq : K → K) (t : QSt K)
    (fb : IsFloat p emin (t .bHi))
    (nb : 2 ^ (emin + p - 1) ≤ |t .bHi|) (h : 2 ^ (emin + 2 * p) ≤ |t .bHi * t .bHi|) :
    let t' := twoSqr (fpOf rnd sq) (2 ^ s + 1) 2 (rdv .bHi) .aHi .aLo t
    t' .aHi = rnd (t .bHi * t .bHi) ∧ t' .aHi + t' .aLo = t .bHi * t .bHi := by
  refine ⟨rfl, ?_⟩
  have hp1 : 1 ≤ p := by have := hs.lt; omega
  obtain ⟨i, i1, i2⟩ := HasExp.of_normal hp1 fb nb
  have hij := prod_exp i2 i2 h
  have : twoSqr (fpOf rnd sq) (2 ^ s + 1) 2 (rdv .bHi) .aHi .aLo t .aLo = sqrErr rnd (2 ^ s + 1) (t .bHi) := rfl
  show rnd (t .bHi * t .bHi) + twoSqr (fpOf rnd sq) (2 ^ s + 1) 2 (rdv .bHi) .aHi .aLo t .aLo = _
  rw [this, sqrErr_exact N hs.one hs.lt hs.half hs.half' i1 (by omega) i2]; ring

/-! ## Accuracy -/

/-- `lis_quad_add`: a normalized pair, within `6 · 2^(-2p)` of the larger operand; no condition on exponents -/
theorem quad_add_accurate (N : Nearest p emin rnd) (hp : 4 ≤ p) (sq : K → K) (junk : QSt K) (b c : QD K)
    (hb : b.Norm p emin rnd) (hc : c.Norm p emin rnd) :
    let a := lisQuadAdd (fpOf rnd sq) false junk b c
    a.Norm p emin rnd ∧ |a.val - (b.val + c.val)| ≤ 6 * 2 ^ (-(2 * p : ℤ)) * max |b.hi| |c.hi| :=
  quad_add_close N hp sq junk (hb.close (by omega) N) (hc.close (by omega) N)

/-- `lis_quad_sub` -/
theorem quad_sub_accurate (N : Nearest p emin rnd) (hp : 4 ≤ p) (sq : K → K) (junk : QSt K) (b c : QD K)
    (hb : b.Norm p emin rnd) (hc : c.Norm p emin rnd) :
    let a := lisQuadSub (fpOf rnd sq) junk b c
    a.Norm p emin rnd ∧ |a.val - (b.val - c.val)| ≤ 6 * 2 ^ (-(2 * p : ℤ)) * max |b.hi| |c.hi| := by
  have := quad_add_close N hp sq junk (hb.close (by omega) N) (hc.close (by omega) N).neg
  rw [abs_neg] at this
  rw [lisQuadSub_eq]
  refine ⟨this.1, ?_⟩
  have e : b.val - c.val = b.val + (⟨-c.hi, -c.lo⟩ : QD K).val := by unfold QD.val; ring
  simp only [e]
  exact this.2

/-- `lis_quad_mul`: relative error at most `9 · 2^(-2p)` when there is no underflow -/
theorem quad_mul_accurate (N : Nearest p emin rnd) {s : ℕ} (hs : SplitOk p s) (sq : K → K) (junk : QSt K) (b c : QD K)
    (hb : b.Norm p emin rnd) (hc : c.Norm p emin rnd) (nb : 2 ^ (emin + p - 1) ≤ |b.hi|) (nc : 2 ^ (emin + p - 1) ≤ |c.hi|)
    (hbc : 2 ^ (emin + 2 * p) ≤ |b.hi * c.hi|) :
    let a := lisQuadMul (fpOf rnd sq) (2 ^ s + 1) junk b c
    a.Norm p emin rnd ∧ |a.val - b.val * c.val| ≤ 9 * 2 ^ (-(2 * p : ℤ)) * |b.hi * c.hi| := by
  have hp1 : 1 ≤ p := by have := hs.lt; omega
  exact quad_mul_close N hs sq junk (hb.close hp1 N) (hc.close hp1 N) nb nc hbc

/-- `lis_quad_mul_dd_d` -/
theorem quad_muld_accurate (N : Nearest p emin rnd) {s : ℕ} (hs : SplitOk p s) (sq : K → K) (junk : QSt K) (b : QD K) (c : K)
    (hb : b.Norm p emin rnd) (fc : IsFloat p emin c) (nb : 2 ^ (emin + p - 1) ≤ |b.hi|) (nc : 2 ^ (emin + p - 1) ≤ |c|)
    (hbc : 2 ^ (emin + 2 * p) ≤ |b.hi * c|) :
    let a := lisQuadMulD (fpOf rnd sq) (2 ^ s + 1) junk b c
    a.Norm p emin rnd ∧ |a.val - b.val * c| ≤ 3 * 2 ^ (-(2 * p : ℤ)) * |b.hi * c| := by
  have hp1 : 1 ≤ p := by have := hs.lt; omega
  exact quad_muld_close N hs sq junk (hb.close hp1 N) fc nb nc hbc

/-- `lis_quad_sqr` -/
theorem quad_sqr_accurate (N : Nearest p emin rnd) {s : ℕ} (hs : SplitOk p s) (sq : K → K) (junk : QSt K) (b : QD K)
    (hb : b.Norm p emin rnd) (nb : 2 ^ (emin + p - 1) ≤ |b.hi|) (hbc : 2 ^ (emin + 2 * p) ≤ |b.hi * b.hi|) :
    let a := lisQuadSqr (fpOf rnd sq) (2 ^ s + 1) 2 junk b
    a.Norm p emin rnd ∧ |a.val - b.val * b.val| ≤ 11 * 2 ^ (-(2 * p : ℤ)) * |b.hi * b.hi| := by
  have hp1 : 1 ≤ p := by have := hs.lt; omega
  exact quad_sqr_close N hs sq junk (hb.close hp1 N) nb hbc

/-- `lis_quad_div`: relative error at most `17 · 2^(-2p)` when there is no underflow -/
theorem quad_div_accurate (N : Nearest p emin rnd) {s : ℕ} (hs : SplitOk p s) (hp8 : 8 ≤ p) (sq : K → K) (junk : QSt K) (b c : QD K)
    (hb : b.Norm p emin rnd) (hc : c.Norm p emin rnd) (nc : 2 ^ (emin + p - 1) ≤ |c.hi|)
    (nb : 2 ^ (emin + 2 * p + 1) ≤ |b.hi|) (nq : 2 ^ (emin + 2 * p) ≤ |b.hi / c.hi|) :
    let a := lisQuadDiv (fpOf rnd sq) (2 ^ s + 1) junk b c
    a.Norm p emin rnd ∧ |a.val - b.val / c.val| ≤ 17 * 2 ^ (-(2 * p : ℤ)) * |b.hi / c.hi| :=
  quad_div_close N hs hp8 sq junk (hb.close (by omega) N) (hc.close (by omega) N) nc nq nb

/-! ## Instance: `double`, and defects -/

def rneD : ℚ → ℚ := rne 53 (-1074)
theorem rneD_nearest : Nearest 53 (-1074) rneD := rne_nearest _ _ (by omega)

def qd0 : QSt ℚ := fun _ => 7
/-- `1 + 2^-60 / 3` to 106 digits or so -/
def qdB : QD ℚ := ⟨1, rneD (1 / 3 / 2 ^ 60)⟩
def qdC : QD ℚ := ⟨rneD (1 / 3), rneD (1 / 3 - rneD (1 / 3))⟩

example : rneD (1 / 3) = 6004799503160661 / 2 ^ 54 ∧ rneD (1 + 1 / 2 ^ 53) = 1 ∧ rneD (1 / 2 ^ 1075) = 0 := by decide +kernel
example : qdC.Norm 53 (-1074) rneD := ⟨rneD_nearest.float _, rneD_nearest.float _, by decide +kernel⟩
example : qdB.Norm 53 (-1074) rneD := ⟨⟨1, 0, by decide, by decide, by norm_num [qdB]⟩, rneD_nearest.float _, by decide +kernel⟩
/-- a sum that a `double` cannot hold -/
example : (lisQuadAdd (fpOf rneD id) false qd0 qdB qdC).val ≠ rneD (qdB.val + qdC.val) := by decide +kernel
example : |(lisQuadMul (fpOf rneD id) 134217729 qd0 qdB qdC).val - qdB.val * qdC.val| ≤ 1 / 2 ^ 104 := by decide +kernel
example : |(lisQuadDiv (fpOf rneD id) 134217729 qd0 qdB qdC).val - qdB.val / qdC.val| ≤ 17 * 3 / 2 ^ 106 := by decide +kernel

/-- Without `USE_FAST_QUAD_ADD` the macro `LIS_QUAD_ADD` counts a carry from the low parts twice: in
`LIS_QUAD_FAST_TWO_SUM(sh,eh,sh,eh)` the variable `sh` is overwritten before it is used.  Both operands are normalized and
their exact sum is `1 + 2^-52`. -/
theorem quad_add_slow_wrong : ∃ b c : QD ℚ, b.Norm 53 (-1074) rneD ∧ c.Norm 53 (-1074) rneD ∧
    b.val + c.val = 1 + 1 / 2 ^ 52 ∧ (lisQuadAdd (fpOf rneD id) true qd0 b c).val = 1 + 1 / 2 ^ 51 := by
  refine ⟨⟨1, 1 / 2 ^ 53⟩, ⟨1 / 2 ^ 53, 0⟩, ⟨⟨1, 0, by decide, by decide, by norm_num⟩, ⟨1, -53, by decide, by decide, ?_⟩, by decide +kernel⟩,
    ⟨⟨1, -53, by decide, by decide, ?_⟩, IsFloat.zero, by decide +kernel⟩, by decide +kernel, by decide +kernel⟩ <;> norm_num

/-- `LIS_QUAD_SQRT` adds the correction with the operands of the fast sum exchanged and loses it: the square root of 2 is no
better than in `double` (error about `2^-54`), although the computed correction is good to `2^-104`.
`sqrt` is correctly rounded here. -/
theorem quad_sqrt_loses_correction : ∃ sq : ℚ → ℚ, |sq 2 * sq 2 - 2| ≤ 1 / 2 ^ 51 ∧
    1 / 2 ^ 53 ≤ |(lisQuadSqrt (fpOf rneD sq) 134217729 1 (1 / 2) 2 qd0 ⟨2, 0⟩).val ^ 2 - 2| :=
  ⟨fun _ => 6369051672525773 / 2 ^ 52, by decide +kernel, by decide +kernel⟩

/-- with `HAS_FMA` `LIS_QUAD_TWO_PROD` returns the product with the wrong sign in `r` (and the error term with the right one) -/
theorem quad_two_prod_fma_sign : ∃ s : QSt ℚ, s .bHi = 3 ∧ s .cHi = 5 ∧
    (twoProdFma (fpOf rneD id) (rdv .bHi) (rdv .cHi) .aHi .aLo s) .aHi = -15 ∧
    (twoProdFma (fpOf rneD id) (rdv .bHi) (rdv .cHi) .aHi .aLo s) .aLo = 0 :=
  ⟨fun v => if v = .bHi then 3 else 5, rfl, rfl, by decide +kernel, by decide +kernel⟩

end Lis
