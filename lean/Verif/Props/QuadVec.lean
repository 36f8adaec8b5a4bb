import Verif.Lemmas.QuadVec
import Verif.Props.Quad
import Verif.Lemmas.Matvec1
import Mathlib.Tactic.IntervalCases

/-!
# C49: vectors and CSR products in quadruple precision

`QD.Norm`, `QD.val`: Spec/Fp.lean; `QVec.get`, `SafeMul`: Spec/QuadVec.lean.  `2^(-2p)` is `2^-106` for `double`.
-/

namespace Lis
open Finset
variable {K : Type} [Field K] [LinearOrder K] [IsStrictOrderedRing K] [FloorRing K] {p : ℕ} {emin : ℤ} {rnd : K → K}

section
variable (N : Nearest p emin rnd) {s : ℕ} (hs : SplitOk p s) (hp8 : 8 ≤ p) (sq : K → K) (junk : QSt K)
include N hs hp8

/-- `y = y + alpha x` -/
theorem axpyex_accurate (n : ℕ) (alpha : QD K) (x y : QVec K) (fx : x.Fits n) (fy : y.Fits n) (ha : alpha.Norm p emin rnd)
    (hx : ∀ i, i < n → (x.get i).Norm p emin rnd) (hy : ∀ i, i < n → (y.get i).Norm p emin rnd)
    (hsafe : ∀ i, i < n → SafeMul p emin alpha.hi (x.get i).hi) :
    Ok (axpyex (fpOf rnd sq) (2 ^ s + 1) junk n alpha x y) fun y' => y'.Fits n ∧ (∀ i, n ≤ i → y'.get i = y.get i) ∧
      ∀ i, i < n → (y'.get i).Norm p emin rnd ∧
        |(y'.get i).val - ((y.get i).val + alpha.val * (x.get i).val)| ≤
          2 ^ (-(2 * p : ℤ)) * (6 * |(y.get i).hi| + 16 * |alpha.hi * (x.get i).hi|) := by
  refine (Ok_qmap (fun i q => fmaToA (fpOf rnd sq) (2 ^ s + 1) junk q alpha (x.get i)) fy ?_).mono ?_
  · intro i y hi h
    rw [QVec.rd_eq h hi, QVec.rd_eq fx hi]
    exact QVec.wr_eq h hi _
  · rintro y' ⟨h1, h2, h3⟩
    refine ⟨h1, h3, fun i hi => ?_⟩
    rw [h2 i hi, fmaToA_eq]
    have := fma_accurate N hs hp8 sq junk (hy i hi) ha (hx i hi) (hsafe i hi)
    exact ⟨this.1, this.2.2⟩

/-- `z = y + alpha x` -/
theorem axpyzex_accurate (n : ℕ) (alpha : QD K) (x y z : QVec K) (fx : x.Fits n) (fy : y.Fits n) (fz : z.Fits n)
    (ha : alpha.Norm p emin rnd)
    (hx : ∀ i, i < n → (x.get i).Norm p emin rnd) (hy : ∀ i, i < n → (y.get i).Norm p emin rnd)
    (hsafe : ∀ i, i < n → SafeMul p emin alpha.hi (x.get i).hi) :
    Ok (axpyzex (fpOf rnd sq) (2 ^ s + 1) junk n alpha x y z) fun z' => z'.Fits n ∧ (∀ i, n ≤ i → z'.get i = z.get i) ∧
      ∀ i, i < n → (z'.get i).Norm p emin rnd ∧
        |(z'.get i).val - ((y.get i).val + alpha.val * (x.get i).val)| ≤
          2 ^ (-(2 * p : ℤ)) * (6 * |(y.get i).hi| + 16 * |alpha.hi * (x.get i).hi|) := by
  refine (Ok_qmap (fun i _ => fmaToD (fpOf rnd sq) (2 ^ s + 1) junk (y.get i) alpha (x.get i)) fz ?_).mono ?_
  · intro i z hi h
    rw [QVec.rd_eq fy hi, QVec.rd_eq fx hi]
    exact QVec.wr_eq h hi _
  · rintro y' ⟨h1, h2, h3⟩
    refine ⟨h1, h3, fun i hi => ?_⟩
    rw [h2 i hi, fmaToD_eq]
    have := fma_accurate N hs hp8 sq junk (hy i hi) ha (hx i hi) (hsafe i hi)
    exact ⟨this.1, this.2.2⟩

/-- `y = x + alpha y` -/
theorem xpayex_accurate (n : ℕ) (alpha : QD K) (x y : QVec K) (fx : x.Fits n) (fy : y.Fits n) (ha : alpha.Norm p emin rnd)
    (hx : ∀ i, i < n → (x.get i).Norm p emin rnd) (hy : ∀ i, i < n → (y.get i).Norm p emin rnd)
    (hsafe : ∀ i, i < n → SafeMul p emin alpha.hi (y.get i).hi) :
    Ok (xpayex (fpOf rnd sq) (2 ^ s + 1) junk n x alpha y) fun y' => y'.Fits n ∧ (∀ i, n ≤ i → y'.get i = y.get i) ∧
      ∀ i, i < n → (y'.get i).Norm p emin rnd ∧
        |(y'.get i).val - ((x.get i).val + alpha.val * (y.get i).val)| ≤
          2 ^ (-(2 * p : ℤ)) * (6 * |(x.get i).hi| + 16 * |alpha.hi * (y.get i).hi|) := by
  refine (Ok_qmap (fun i q => fmaToC (fpOf rnd sq) (2 ^ s + 1) junk (x.get i) alpha q) fy ?_).mono ?_
  · intro i y hi h
    rw [QVec.rd_eq h hi, QVec.rd_eq fx hi]
    exact QVec.wr_eq h hi _
  · rintro y' ⟨h1, h2, h3⟩
    refine ⟨h1, h3, fun i hi => ?_⟩
    rw [h2 i hi, fmaToC_eq]
    have := fma_accurate N hs hp8 sq junk (hx i hi) ha (hy i hi) (hsafe i hi)
    exact ⟨this.1, this.2.2⟩

/-- `x = alpha x`, `alpha` a pair -/
theorem scaleex_accurate (n : ℕ) (alpha : QD K) (x : QVec K) (fx : x.Fits n) (ha : alpha.Norm p emin rnd)
    (hx : ∀ i, i < n → (x.get i).Norm p emin rnd) (hsafe : ∀ i, i < n → SafeMul p emin (x.get i).hi alpha.hi) :
    Ok (scaleex (fpOf rnd sq) (2 ^ s + 1) junk n alpha x) fun x' => x'.Fits n ∧ (∀ i, n ≤ i → x'.get i = x.get i) ∧
      ∀ i, i < n → (x'.get i).Norm p emin rnd ∧
        |(x'.get i).val - (x.get i).val * alpha.val| ≤ 9 * 2 ^ (-(2 * p : ℤ)) * |(x.get i).hi * alpha.hi| := by
  refine (Ok_qmap (fun i q => mulToB (fpOf rnd sq) (2 ^ s + 1) junk q alpha) fx ?_).mono ?_
  · intro i y hi h
    rw [QVec.rd_eq h hi]
    exact QVec.wr_eq h hi _
  · rintro y' ⟨h1, h2, h3⟩
    refine ⟨h1, h3, fun i hi => ?_⟩
    rw [h2 i hi, mulToB_eq]
    exact quad_mul_safe N hs sq junk ((hx i hi).close (by omega) N) (ha.close (by omega) N) (hsafe i hi)

/-- `x = alpha x`, `alpha` a `double` -/
theorem scaleexD_accurate (n : ℕ) (alpha : K) (x : QVec K) (fx : x.Fits n) (ha : IsFloat p emin alpha)
    (hx : ∀ i, i < n → (x.get i).Norm p emin rnd) (hsafe : ∀ i, i < n → SafeMul p emin (x.get i).hi alpha) :
    Ok (scaleexD (fpOf rnd sq) (2 ^ s + 1) junk n alpha x) fun x' => x'.Fits n ∧ (∀ i, n ≤ i → x'.get i = x.get i) ∧
      ∀ i, i < n → (x'.get i).Norm p emin rnd ∧
        |(x'.get i).val - (x.get i).val * alpha| ≤ 3 * 2 ^ (-(2 * p : ℤ)) * |(x.get i).hi * alpha| := by
  refine (Ok_qmap (fun i q => muldToB (fpOf rnd sq) (2 ^ s + 1) junk q alpha) fx ?_).mono ?_
  · intro i y hi h
    rw [QVec.rd_eq h hi]
    exact QVec.wr_eq h hi _
  · rintro y' ⟨h1, h2, h3⟩
    refine ⟨h1, h3, fun i hi => ?_⟩
    rw [h2 i hi, muldToB_eq]
    exact quad_muld_safe N hs sq junk ((hx i hi).close (by omega) N) ha (hsafe i hi)

/-- `x = 1 / x` elementwise -/
theorem reciprocalex_accurate (n : ℕ) (x : QVec K) (fx : x.Fits n)
    (hx : ∀ i, i < n → (x.get i).Norm p emin rnd) (he : emin + 2 * p + 1 ≤ 0)
    (hn : ∀ i, i < n → 2 ^ (emin + p - 1) ≤ |(x.get i).hi| ∧ 2 ^ (emin + 2 * p) ≤ |1 / (x.get i).hi|) :
    Ok (reciprocalex (fpOf rnd sq) (2 ^ s + 1) junk n x) fun x' => x'.Fits n ∧ (∀ i, n ≤ i → x'.get i = x.get i) ∧
      ∀ i, i < n → (x'.get i).Norm p emin rnd ∧
        |(x'.get i).val - 1 / (x.get i).val| ≤ 17 * 2 ^ (-(2 * p : ℤ)) * |1 / (x.get i).hi| := by
  refine (Ok_qmap (fun i q => divToC (fpOf rnd sq) (2 ^ s + 1) junk ⟨1, 0⟩ q) fx ?_).mono ?_
  · intro i y hi h
    rw [QVec.rd_eq h hi]
    exact QVec.wr_eq h hi _
  · rintro y' ⟨h1, h2, h3⟩
    refine ⟨h1, h3, fun i hi => ?_⟩
    rw [h2 i hi, divToC_eq]
    have f1 : IsFloat p emin (1 : K) := by
      have := isFloat_pow (K := K) (p := p) (emin := emin) (k := 0) (by omega) (by omega)
      simpa using this
    have h1N : (⟨1, 0⟩ : QD K).Norm p emin rnd := ⟨f1, IsFloat.zero, by simp [N.exact f1]⟩
    have := quad_div_close N hs hp8 sq junk (h1N.close (by omega) N) ((hx i hi).close (by omega) N) (hn i hi).1 (hn i hi).2
      (by simp only [abs_one]
          have : (2 : K) ^ (emin + 2 * (p : ℤ) + 1) ≤ 2 ^ (0 : ℤ) := two_zpow_le he
          simpa using this)
    simpa [QD.val] using this

/-- the inner product: error at most `18 n 2^(-2p)` times the sum of the moduli -/
theorem dotex_accurate (n : ℕ) (x y : QVec K) (fx : x.Fits n) (fy : y.Fits n) (hn : (n : K) * 2 ^ (-(2 * p : ℤ)) ≤ 1 / 256)
    (hx : ∀ i, i < n → (x.get i).Norm p emin rnd) (hy : ∀ i, i < n → (y.get i).Norm p emin rnd)
    (hsafe : ∀ i, i < n → SafeMul p emin (y.get i).hi (x.get i).hi) :
    Ok (dotex (fpOf rnd sq) (2 ^ s + 1) junk n x y) fun d => d.Norm p emin rnd ∧
      |d.val - ∑ i ∈ range n, (y.get i).val * (x.get i).val| ≤
        18 * n * 2 ^ (-(2 * p : ℤ)) * ∑ i ∈ range n, |(y.get i).hi * (x.get i).hi| := by
  unfold dotex
  refine Ok_loop_le (fun k d => AccInv p emin rnd k (∑ i ∈ range k, (y.get i).val * (x.get i).val)
    (∑ i ∈ range k, |(y.get i).hi * (x.get i).hi|) d) (Nat.zero_le _) ?_ ?_ ?_
  · simpa using AccInv.zero N
  · rintro k d - hk h
    rw [QVec.rd_eq fy hk, QVec.rd_eq fx hk]
    show Ok (some _) _
    rw [Ok_some, fmaToA_eq, sum_range_succ, sum_range_succ]
    obtain ⟨a1, a2, a3⟩ := fma_accurate N hs hp8 sq junk h.norm (hy k hk) (hx k hk) (hsafe k hk)
    refine h.step N hp8 ?_ a2 a1 (a3.trans ?_)
    · have : (k : K) ≤ n := by exact_mod_cast hk.le
      exact (mul_le_mul_of_nonneg_right this (two_zpow_pos _).le).trans hn
    · exact mul_le_mul_of_nonneg_left (by linarith [abs_nonneg ((y.get k).hi * (x.get k).hi)]) (two_zpow_pos _).le
  · intro d h; exact ⟨h.norm, h.err⟩

/-- the sum of squares under the 2-norm -/
theorem sumsqex_accurate (n : ℕ) (x : QVec K) (fx : x.Fits n) (hn : (n : K) * 2 ^ (-(2 * p : ℤ)) ≤ 1 / 256)
    (hx : ∀ i, i < n → (x.get i).Norm p emin rnd) (hsafe : ∀ i, i < n → SafeMul p emin (x.get i).hi (x.get i).hi) :
    Ok (sumsqex (fpOf rnd sq) (2 ^ s + 1) junk 2 n x) fun d => d.Norm p emin rnd ∧
      |d.val - ∑ i ∈ range n, (x.get i).val * (x.get i).val| ≤
        18 * n * 2 ^ (-(2 * p : ℤ)) * ∑ i ∈ range n, |(x.get i).hi * (x.get i).hi| := by
  unfold sumsqex
  refine Ok_loop_le (fun k d => AccInv p emin rnd k (∑ i ∈ range k, (x.get i).val * (x.get i).val)
    (∑ i ∈ range k, |(x.get i).hi * (x.get i).hi|) d) (Nat.zero_le _) ?_ ?_ ?_
  · simpa using AccInv.zero N
  · rintro k d - hk h
    rw [QVec.rd_eq fx hk]
    show Ok (some _) _
    rw [Ok_some, fsaToA_eq, sum_range_succ, sum_range_succ]
    obtain ⟨a1, a2, a3⟩ := fsa_accurate N hs hp8 sq junk h.norm (hx k hk) (hsafe k hk)
    refine h.step N hp8 ?_ a2 a1 a3
    have : (k : K) ≤ n := by exact_mod_cast hk.le
    exact (mul_le_mul_of_nonneg_right this (two_zpow_pos _).le).trans hn
  · intro d h; exact ⟨h.norm, h.err⟩

/-- the loop over the elements of one row -/
theorem accRowEx_ok {n np m0 : ℕ} {T0 W0 : K} (index : Arr ℕ) (value : Arr K) (x y : QVec K) {i js je nnz : ℕ}
    (fx : x.Fits np) (fy : y.Fits n) (hi : i < n) (hje : js ≤ je) (hjn : je ≤ nnz) (hisz : nnz ≤ index.size) (hvsz : nnz ≤ value.size)
    (hidx : ∀ k, k < nnz → index.get k < np)
    (hn : ((m0 + (je - js) : ℕ) : K) * 2 ^ (-(2 * p : ℤ)) ≤ 1 / 256)
    (hx : ∀ j, j < np → (x.get j).Norm p emin rnd) (hv : ∀ k, js ≤ k → k < je → IsFloat p emin (value.get k))
    (hsafe : ∀ k, js ≤ k → k < je → SafeMul p emin (x.get (index.get k)).hi (value.get k))
    (h0 : AccInv p emin rnd m0 T0 W0 (y.get i)) :
    Ok (accRowEx (fpOf rnd sq) (2 ^ s + 1) junk index value x i js je y) fun y' => y'.Fits n ∧
      (∀ l, l ≠ i → y'.get l = y.get l) ∧
      AccInv p emin rnd (m0 + (je - js)) (T0 + ∑ k ∈ Ico js je, (x.get (index.get k)).val * value.get k)
        (W0 + ∑ k ∈ Ico js je, |(x.get (index.get k)).hi * value.get k|) (y'.get i) := by
  unfold accRowEx
  refine Ok_loop_le (fun k y' => y'.Fits n ∧ (∀ l, l ≠ i → y'.get l = y.get l) ∧
      AccInv p emin rnd (m0 + (k - js)) (T0 + ∑ j ∈ Ico js k, (x.get (index.get j)).val * value.get j)
        (W0 + ∑ j ∈ Ico js k, |(x.get (index.get j)).hi * value.get j|) (y'.get i)) hje ?_ ?_ ?_
  · exact ⟨fy, fun _ _ => rfl, by simpa using h0⟩
  · rintro k y' h1 h2 ⟨f, ho, h⟩
    simp only [Ok_bind, Ok_rd]
    refine ⟨by omega, by omega, ?_⟩
    rw [QVec.rd_eq f hi, QVec.rd_eq fx (hidx k (by omega)), Ok_some, Ok_some, QVec.wr_eq f hi, Ok_some, fmadToA_eq]
    obtain ⟨a1, a2, a3⟩ := fmad_accurate N hs hp8 sq junk h.norm (hx _ (hidx k (by omega))) (hv k h1 h2) (hsafe k h1 h2)
    refine ⟨f, fun l hl => by rw [QVec.get_set, if_neg hl]; exact ho l hl, ?_⟩
    rw [QVec.get_set, if_pos rfl, sum_Ico_succ_top h1, sum_Ico_succ_top h1, ← add_assoc, ← add_assoc,
      show m0 + (k + 1 - js) = m0 + (k - js) + 1 by omega]
    refine h.step N hp8 ?_ a2 a1 (a3.trans ?_)
    · have : ((m0 + (k - js) : ℕ) : K) ≤ ((m0 + (je - js) : ℕ) : K) := by exact_mod_cast (by omega : m0 + (k - js) ≤ m0 + (je - js))
      exact (mul_le_mul_of_nonneg_right this (two_zpow_pos _).le).trans hn
    · exact mul_le_mul_of_nonneg_left (by linarith [abs_nonneg ((x.get (index.get k)).hi * value.get k)]) (two_zpow_pos _).le
  · intro y' h; exact h

omit [LinearOrder K] [IsStrictOrderedRing K] [FloorRing K] N hs hp8 in
theorem row_val (A : Csr K) (hA : A.WF) (x : ℕ → K) {i : ℕ} (hi : i < A.n) :
    ∑ k ∈ Ico (A.ptr.get i) (A.ptr.get (i + 1)), x (A.index.get k) * A.value.get k = ∑ j ∈ range A.np, A.entry i j * x j := by
  rw [← A.row_sum hA x hi]
  exact sum_congr rfl fun k _ => mul_comm _ _

omit [LinearOrder K] [IsStrictOrderedRing K] [FloorRing K] N hs hp8 in
theorem ptr_le_nnz (A : Csr K) (hA : A.WF) {i : ℕ} (hi : i < A.n) : A.ptr.get (i + 1) ≤ A.nnz := by
  have : ∀ d, i + 1 + d ≤ A.n → A.ptr.get (i + 1) ≤ A.ptr.get (i + 1 + d) := by
    intro d
    induction d with
    | zero => intro _; exact le_refl _
    | succ d ih => intro h; exact (ih (by omega)).trans (hA.ptr.mono _ (by omega))
  have := this (A.n - (i + 1)) (by omega)
  rwa [show i + 1 + (A.n - (i + 1)) = A.n by omega, hA.ptr.last] at this

/-- The product with a CSR matrix (not split): in every row the error is at most `18 m 2^(-2p)` times the sum of the moduli,
`m` the number of elements of the row. -/
theorem matvecCsrEx_accurate (A : Csr K) (hA : A.WF) (x y : QVec K) (fx : x.Fits A.np) (fy : y.Fits A.n)
    (hn : (A.nnz : K) * 2 ^ (-(2 * p : ℤ)) ≤ 1 / 256)
    (hx : ∀ j, j < A.np → (x.get j).Norm p emin rnd) (hv : ∀ k, k < A.nnz → IsFloat p emin (A.value.get k))
    (hsafe : ∀ k, k < A.nnz → SafeMul p emin (x.get (A.index.get k)).hi (A.value.get k)) :
    Ok (matvecCsrEx (fpOf rnd sq) (2 ^ s + 1) junk A x y) fun y' => y'.Fits A.n ∧ (∀ i, A.n ≤ i → y'.get i = y.get i) ∧
      ∀ i, i < A.n → (y'.get i).Norm p emin rnd ∧
        |(y'.get i).val - ∑ j ∈ range A.np, A.entry i j * (x.get j).val| ≤
          18 * ((A.ptr.get (i + 1) - A.ptr.get i : ℕ) : K) * 2 ^ (-(2 * p : ℤ)) *
            ∑ k ∈ Ico (A.ptr.get i) (A.ptr.get (i + 1)), |(x.get (A.index.get k)).hi * A.value.get k| := by
  have hle : ∀ i, i < A.n → A.ptr.get (i + 1) ≤ A.nnz := fun i hi => ptr_le_nnz A hA hi
  have hsz := hA.ptr.size
  unfold matvecCsrEx
  refine Ok_loop_le (fun k y' => y'.Fits A.n ∧ (∀ i, k ≤ i → y'.get i = y.get i) ∧ ∀ i, i < k →
    AccInv p emin rnd (A.ptr.get (i + 1) - A.ptr.get i)
      (∑ k ∈ Ico (A.ptr.get i) (A.ptr.get (i + 1)), (x.get (A.index.get k)).val * A.value.get k)
      (∑ k ∈ Ico (A.ptr.get i) (A.ptr.get (i + 1)), |(x.get (A.index.get k)).hi * A.value.get k|) (y'.get i))
    (Nat.zero_le _) ⟨fy, fun _ _ => rfl, by omega⟩ ?_ ?_
  · rintro i y' - hi ⟨f, h1, h2⟩
    rw [QVec.wr_eq f hi]
    simp only [Ok_bind, Ok_some, Ok_rd]
    refine ⟨by omega, by omega, ?_⟩
    have hm := hA.ptr.mono i hi
    have hl := hle i hi
    have := accRowEx_ok N hs hp8 sq junk (m0 := 0) (T0 := 0) (W0 := 0) A.index A.value x (y'.set i ⟨0, 0⟩) fx
      (QVec.set_fits f _) hi hm hl hA.isz hA.vsz hA.idx
      (by
        have : ((0 + (A.ptr.get (i + 1) - A.ptr.get i) : ℕ) : K) ≤ (A.nnz : K) := by exact_mod_cast (by omega)
        exact (mul_le_mul_of_nonneg_right this (two_zpow_pos _).le).trans hn)
      hx (fun k _ hk => hv k (by omega)) (fun k _ hk => hsafe k (by omega))
      (by rw [QVec.get_set, if_pos rfl]; exact AccInv.zero N)
    refine this.mono ?_
    rintro y'' ⟨g, g1, g2⟩
    simp only [zero_add] at g2
    refine ⟨g, fun l hl => ?_, fun l hl => ?_⟩
    · rw [g1 l (by omega), QVec.get_set, if_neg (by omega)]; exact h1 l (by omega)
    · rcases eq_or_ne l i with rfl | hne
      · exact g2
      · rw [g1 l hne, QVec.get_set, if_neg hne]; exact h2 l (by omega)
  · rintro y' ⟨f, h1, h2⟩
    refine ⟨f, h1, fun i hi => ⟨(h2 i hi).norm, ?_⟩⟩
    have := (h2 i hi).err
    rw [row_val A hA (fun j => (x.get j).val) hi] at this
    exact this

/-- The same for the split matrix `D + L + U`. -/
theorem matvecSplitCsrEx_accurate (A : SplitCsr K) (hA : A.WF) (x y : QVec K) (fx : x.Fits A.np) (fy : y.Fits A.n)
    (hn : ((1 + A.L.nnz + A.U.nnz : ℕ) : K) * 2 ^ (-(2 * p : ℤ)) ≤ 1 / 256)
    (hx : ∀ j, j < A.np → (x.get j).Norm p emin rnd)
    (hd : ∀ i, i < A.n → IsFloat p emin (A.D.get i) ∧ SafeMul p emin (x.get i).hi (A.D.get i))
    (hl : ∀ k, k < A.L.nnz → IsFloat p emin (A.L.value.get k) ∧ SafeMul p emin (x.get (A.L.index.get k)).hi (A.L.value.get k))
    (hu : ∀ k, k < A.U.nnz → IsFloat p emin (A.U.value.get k) ∧ SafeMul p emin (x.get (A.U.index.get k)).hi (A.U.value.get k)) :
    Ok (matvecSplitCsrEx (fpOf rnd sq) (2 ^ s + 1) junk A x y) fun y' => y'.Fits A.n ∧ (∀ i, A.n ≤ i → y'.get i = y.get i) ∧
      ∀ i, i < A.n → (y'.get i).Norm p emin rnd ∧
        |(y'.get i).val - ∑ j ∈ range A.np, A.entry i j * (x.get j).val| ≤
          18 * ((1 + (A.L.ptr.get (i + 1) - A.L.ptr.get i) + (A.U.ptr.get (i + 1) - A.U.ptr.get i) : ℕ) : K) * 2 ^ (-(2 * p : ℤ)) *
            (|(x.get i).hi * A.D.get i| + ∑ k ∈ Ico (A.L.ptr.get i) (A.L.ptr.get (i + 1)), |(x.get (A.L.index.get k)).hi * A.L.value.get k| +
              ∑ k ∈ Ico (A.U.ptr.get i) (A.U.ptr.get (i + 1)), |(x.get (A.U.index.get k)).hi * A.U.value.get k|) := by
  have hlw := hA.lwf; have huw := hA.uwf
  have e1 := hA.ln; have e2 := hA.lnp; have e3 := hA.un; have e4 := hA.unp
  have ds := hA.dsz; have le := hA.le
  have hlz := hlw.ptr.size; have huz := huw.ptr.size
  unfold matvecSplitCsrEx
  refine Ok_loop_le (fun k y' => y'.Fits A.n ∧ (∀ i, k ≤ i → y'.get i = y.get i) ∧ ∀ i, i < k →
    AccInv p emin rnd (1 + (A.L.ptr.get (i + 1) - A.L.ptr.get i) + (A.U.ptr.get (i + 1) - A.U.ptr.get i))
      ((x.get i).val * A.D.get i + ∑ k ∈ Ico (A.L.ptr.get i) (A.L.ptr.get (i + 1)), (x.get (A.L.index.get k)).val * A.L.value.get k +
        ∑ k ∈ Ico (A.U.ptr.get i) (A.U.ptr.get (i + 1)), (x.get (A.U.index.get k)).val * A.U.value.get k)
      (|(x.get i).hi * A.D.get i| + ∑ k ∈ Ico (A.L.ptr.get i) (A.L.ptr.get (i + 1)), |(x.get (A.L.index.get k)).hi * A.L.value.get k| +
        ∑ k ∈ Ico (A.U.ptr.get i) (A.U.ptr.get (i + 1)), |(x.get (A.U.index.get k)).hi * A.U.value.get k|) (y'.get i))
    (Nat.zero_le _) ⟨fy, fun _ _ => rfl, by omega⟩ ?_ ?_
  · rintro i y' - hi ⟨f, h1, h2⟩
    simp only [Ok_bind, Ok_rd]
    refine ⟨by omega, ?_⟩
    rw [QVec.rd_eq fx (by omega : i < A.np), Ok_some, QVec.wr_eq f hi, Ok_some]
    refine ⟨by omega, by omega, ?_⟩
    have hml := hlw.ptr.mono i (by omega)
    have hmu := huw.ptr.mono i (by omega)
    have hll := ptr_le_nnz A.L hlw (by omega : i < A.L.n)
    have huu := ptr_le_nnz A.U huw (by omega : i < A.U.n)
    have cast : ∀ m : ℕ, m ≤ 1 + A.L.nnz + A.U.nnz → (m : K) * 2 ^ (-(2 * p : ℤ)) ≤ 1 / 256 := fun m hm => by
      have : (m : K) ≤ ((1 + A.L.nnz + A.U.nnz : ℕ) : K) := by exact_mod_cast hm
      exact (mul_le_mul_of_nonneg_right this (two_zpow_pos _).le).trans hn
    -- the diagonal element
    obtain ⟨d1, d2⟩ := quad_muld_safe N hs sq junk ((hx i (by omega)).close (by omega) N) (hd i hi).1 (hd i hi).2
    have d0 : AccInv p emin rnd 1 ((x.get i).val * A.D.get i) |(x.get i).hi * A.D.get i|
        ((y'.set i (lisQuadMulD (fpOf rnd sq) (2 ^ s + 1) junk (x.get i) (A.D.get i))).get i) := by
      rw [QVec.get_set, if_pos rfl]
      refine ⟨d1, ?_, d2.trans ?_⟩
      · have h1 := (((hx i (by omega)).close (by omega) N).hi_le hp8).2
        rw [abs_mul, abs_mul]
        have := mul_le_mul_of_nonneg_right h1 (abs_nonneg (A.D.get i))
        have := mul_nonneg (abs_nonneg (x.get i).hi) (abs_nonneg (A.D.get i))
        linarith
      · refine mul_le_mul_of_nonneg_right ?_ (abs_nonneg _)
        have := two_zpow_pos (K := K) (-(2 * p : ℤ))
        push_cast
        linarith
    have hL := accRowEx_ok N hs hp8 sq junk A.L.index A.L.value x _ fx (QVec.set_fits f _) hi hml hll hlw.isz hlw.vsz
      (fun k hk => e2 ▸ hlw.idx k hk) (cast _ (by omega)) hx (fun k _ hk => (hl k (by omega)).1) (fun k _ hk => (hl k (by omega)).2) d0
    refine hL.mono ?_
    rintro y1 ⟨g, g1, g2⟩
    refine ⟨by omega, by omega, ?_⟩
    have hU := accRowEx_ok N hs hp8 sq junk A.U.index A.U.value x y1 fx g hi hmu huu huw.isz huw.vsz
      (fun k hk => e4 ▸ huw.idx k hk) (cast _ (by omega)) hx (fun k _ hk => (hu k (by omega)).1) (fun k _ hk => (hu k (by omega)).2) g2
    refine hU.mono ?_
    rintro y2 ⟨q, q1, q2⟩
    refine ⟨q, fun l hl' => ?_, fun l hl' => ?_⟩
    · rw [q1 l (by omega), g1 l (by omega), QVec.get_set, if_neg (by omega)]; exact h1 l (by omega)
    · rcases eq_or_ne l i with rfl | hne
      · exact q2
      · rw [q1 l hne, g1 l hne, QVec.get_set, if_neg hne]; exact h2 l (by omega)
  · rintro y' ⟨f, h1, h2⟩
    refine ⟨f, h1, fun i hi => ⟨(h2 i hi).norm, ?_⟩⟩
    have := (h2 i hi).err
    rw [row_val A.L hlw (fun j => (x.get j).val) (by omega), row_val A.U huw (fun j => (x.get j).val) (by omega), e2, e4] at this
    have e : ∑ j ∈ range A.np, A.entry i j * (x.get j).val = (x.get i).val * A.D.get i +
        ∑ j ∈ range A.np, A.L.entry i j * (x.get j).val + ∑ j ∈ range A.np, A.U.entry i j * (x.get j).val := by
      simp only [SplitCsr.entry, add_mul, sum_add_distrib, ite_mul, zero_mul, sum_ite_eq]
      rw [if_pos (by simp; omega), mul_comm]
    rw [e]
    exact this

end

/-! ## Instance -/

def qvX : QVec ℚ := ⟨⟨3, fun i => if i = 0 then 1 else if i = 1 then rneD (1 / 3) else 0⟩,
  ⟨3, fun i => if i = 1 then rneD (1 / 3 - rneD (1 / 3)) else 0⟩⟩
def qvY : QVec ℚ := ⟨⟨3, fun _ => -7⟩, ⟨3, fun _ => 0⟩⟩
/-- rows `(3, 3, .)`, `(., ., 0)`, `(-1, 3, .)` -/
def qvA : Csr ℚ := ⟨3, 3, 5, ⟨4, fun i => if i = 0 then 0 else if i = 1 then 2 else if i = 2 then 3 else 5⟩,
  ⟨5, fun k => if k = 0 then 0 else if k = 1 then 1 else if k = 2 then 2 else if k = 3 then 0 else 1⟩,
  ⟨5, fun k => if k = 0 then 3 else if k = 1 then 3 else if k = 2 then 5 else if k = 3 then -1 else 3⟩⟩

/-- the last row cancels to about `2^-108`: `double` arithmetic would give 0 or `2^-54` -/
example : (matvecCsrEx (fpOf rneD id) 134217729 qd0 qvA qvX qvY).map (fun y => (y.get 0, y.get 1)) = some (⟨4, 0⟩, ⟨0, 0⟩) := by
  decide +kernel
example : (matvecCsrEx (fpOf rneD id) 134217729 qd0 qvA qvX qvY).map (fun y => decide (|(y.get 2).val| ≤ 1 / 2 ^ 106)) = some true := by
  decide +kernel

/-- the hypotheses of `matvecCsrEx_accurate` hold for it -/
example : Ok (matvecCsrEx (fpOf rneD id) (2 ^ 27 + 1) qd0 qvA qvX qvY) fun y' => (y'.get 0).Norm 53 (-1074) rneD := by
  have f1 : ∀ m : ℤ, |m| < 2 ^ 53 → IsFloat 53 (-1074) (m : ℚ) := fun m hm => ⟨m, 0, hm, by omega, by simp⟩
  have z0 : rneD 0 = 0 := by decide +kernel
  have hx : ∀ j, j < 3 → (qvX.get j).Norm 53 (-1074) rneD := by
    intro j hj
    interval_cases j
    · exact ⟨by have := f1 1 (by decide); rwa [Int.cast_one] at this, IsFloat.zero, by decide +kernel⟩
    · exact ⟨rneD_nearest.float _, rneD_nearest.float _, by decide +kernel⟩
    · exact ⟨IsFloat.zero, IsFloat.zero, by decide +kernel⟩
  refine (matvecCsrEx_accurate rneD_nearest splitOk_double.1 (by omega) id qd0 qvA
    ⟨⟨by decide, rfl, ?_, rfl⟩, by decide, by decide, by decide⟩ qvX qvY ⟨by decide, by decide⟩ ⟨by decide, by decide⟩ ?_ hx ?_ ?_).mono ?_
  · decide
  · decide +kernel
  · intro k hk
    have : ∃ m : ℤ, |m| < 2 ^ 53 ∧ qvA.value.get k = m := by
      change k < 5 at hk
      interval_cases k
      · exact ⟨3, by decide, rfl⟩
      · exact ⟨3, by decide, rfl⟩
      · exact ⟨5, by decide, rfl⟩
      · exact ⟨-1, by decide, by decide +kernel⟩
      · exact ⟨3, by decide, rfl⟩
    obtain ⟨m, h1, h2⟩ := this
    rw [h2]; exact f1 m h1
  · intro k hk
    change k < 5 at hk
    unfold SafeMul
    interval_cases k <;> decide +kernel
  · rintro y' ⟨-, -, h⟩
    exact (h 0 (by decide)).1

end Lis
