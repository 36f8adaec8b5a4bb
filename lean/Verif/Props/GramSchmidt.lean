import Verif.Lemmas.QrAlg
import Verif.Props.GmresExamples
import Mathlib.LinearAlgebra.Matrix.Charpoly.Coeff
import Mathlib.Tactic.NormNum
import Mathlib.Tactic.FinCases

/-!
# C47: dense QR factorizations and the QR algorithm (`lis_array_cgs`, `lis_array_mgs`, `lis_array_qr`)

Exact arithmetic on real numbers, `tol` stands for the constant `1e-12` of the code, `sqrt` is the square root.
Element (i,j) of the array `a` of order `n` is `a.cm n i j = a[i+j*n]`.
-/

namespace Lis
open Finset Matrix

/-- **C47.** Classical Gram-Schmidt on any matrix: no access out of bounds; it stops at some column `m`; the columns before
are factored exactly, with orthonormal `q` and `r` upper triangular; if it stops early then the norm of what is left of
column `m` is below `tol`, and nothing later is computed. -/
theorem cgs_any {n : ℕ} {tol : ℝ} {a q r : Arr ℝ} {junk : ℕ → ℝ} (ht : 0 < tol) (ha : n * n ≤ a.size)
    (hq : n * n ≤ q.size) (hr : n * n ≤ r.size) :
    Ok (arrayCgs Real.sqrt (fun v => decide (v < tol)) junk n a q r) fun p => p.1.size = q.size ∧ p.2.size = r.size ∧
      ∃ m, m ≤ n ∧ QrCols n m (a.cm n) (p.1.cm n) (p.2.cm n) ∧ (∀ j, j < m → tol ≤ p.2.cm n j j) ∧
        (m < n → p.2.cm n m m < tol ∧ QrStop n m (a.cm n) (p.1.cm n) (p.2.cm n)) :=
  arrayCgs_spec ht ha hq hr

/-- **C47.** If the smallest singular value of `A` is at least `tol`, classical Gram-Schmidt returns an orthogonal `Q` and
an upper triangular `R` with diagonal at least `tol` and `Q R = A`. -/
theorem cgs_factors {n : ℕ} {tol : ℝ} {a q r : Arr ℝ} {junk : ℕ → ℝ} (ht : 0 < tol) (ha : n * n ≤ a.size)
    (hq : n * n ≤ q.size) (hr : n * n ≤ r.size) (hA : LowerBound n tol (a.cm n)) :
    Ok (arrayCgs Real.sqrt (fun v => decide (v < tol)) junk n a q r) fun p =>
      (sqMat n (p.1.cm n))ᵀ * sqMat n (p.1.cm n) = 1 ∧ sqMat n (p.1.cm n) * sqMat n (p.2.cm n) = sqMat n (a.cm n) ∧
      (∀ i j, i < n → j < i → p.2.cm n i j = 0) ∧ ∀ j, j < n → tol ≤ p.2.cm n j j := by
  refine (arrayCgs_spec ht ha hq hr).mono ?_
  rintro ⟨q', r'⟩ ⟨-, -, m, hm, c3, c4, c5⟩
  simp only at c3 c4 c5 ⊢
  obtain rfl := c3.full hm ht c5 hA
  exact ⟨(sqMat_qr c3).1, (sqMat_qr c3).2, fun i j hi hj => c3.up i j hi (by omega) hj, c4⟩

/-- **C47.** Modified Gram-Schmidt on any matrix: orthogonal columns of length 1 or 0, `r` upper triangular, and the array
`a` is overwritten with the projected columns. -/
theorem mgs_any {n : ℕ} {tol : ℝ} {a q r : Arr ℝ} {junk : ℕ → ℝ} (ht : 0 < tol) (ha : n * n ≤ a.size)
    (hq : n * n ≤ q.size) (hr : n * n ≤ r.size) :
    Ok (arrayMgs Real.sqrt (fun v => decide (v < tol)) junk n a q r) fun p =>
      p.1.size = a.size ∧ p.2.1.size = q.size ∧ p.2.2.size = r.size ∧
      MgsOut n tol (a.cm n) (p.1.cm n) (p.2.1.cm n) (p.2.2.cm n) :=
  arrayMgs_spec ht ha hq hr

/-- **C47.** Modified Gram-Schmidt on any matrix: every column of `Q R` differs from that of the given `A` by less than `tol` in
the 2-norm, and is equal to it unless the column was dropped. -/
theorem mgs_error {n : ℕ} {tol : ℝ} {a q r : Arr ℝ} {junk : ℕ → ℝ} (ht : 0 < tol) (ha : n * n ≤ a.size)
    (hq : n * n ≤ q.size) (hr : n * n ≤ r.size) :
    Ok (arrayMgs Real.sqrt (fun v => decide (v < tol)) junk n a q r) fun p =>
      ∀ j, j < n → ∑ i ∈ range n, (a.cm n i j - ∑ l ∈ range n, p.2.1.cm n i l * p.2.2.cm n l j) ^ 2 < tol ^ 2 ∧
        (tol ≤ p.2.2.cm n j j → ∀ i, i < n → ∑ l ∈ range n, p.2.1.cm n i l * p.2.2.cm n l j = a.cm n i j) := by
  refine (arrayMgs_spec ht ha hq hr).mono ?_
  rintro ⟨a', q', r'⟩ ⟨-, -, -, h⟩ j hj
  simp only at h ⊢
  have hsum : ∀ i, i < n → ∑ l ∈ range n, q'.cm n i l * r'.cm n l j =
      ∑ l ∈ range j, q'.cm n i l * r'.cm n l j + q'.cm n i j * r'.cm n j j := by
    intro i _
    rw [← sum_range_succ]
    symm
    refine sum_subset (range_subset_range.2 hj) fun l hl hn => ?_
    rw [h.up l j (mem_range.1 hl) hj (by have := mt mem_range.2 hn; omega), mul_zero]
  have hk : tol ≤ r'.cm n j j → ∀ i, i < n → ∑ l ∈ range n, q'.cm n i l * r'.cm n l j = a.cm n i j := by
    intro hs i hi
    rw [hsum i hi, ← h.kept i j hi hj hs, h.left i j hi hj]; ring
  refine ⟨?_, hk⟩
  by_cases hs : r'.cm n j j < tol
  · have e : ∑ i ∈ range n, (a.cm n i j - ∑ l ∈ range n, q'.cm n i l * r'.cm n l j) ^ 2 = r'.cm n j j * r'.cm n j j := by
      rw [← h.norm j hj]
      refine sum_congr rfl fun i hi => ?_
      have hi := mem_range.1 hi
      rw [hsum i hi, h.drop i j hi hj hs, h.left i j hi hj]; ring
    rw [e]
    have := h.diag j hj
    nlinarith
  · have e : ∑ i ∈ range n, (a.cm n i j - ∑ l ∈ range n, q'.cm n i l * r'.cm n l j) ^ 2 = 0 :=
      sum_eq_zero fun i hi => by rw [hk (not_lt.1 hs) i (mem_range.1 hi)]; ring
    rw [e]
    positivity

/-- **C47.** If the smallest singular value of `A` is at least `tol`, modified Gram-Schmidt returns the QR factorization of `A`. -/
theorem mgs_factors {n : ℕ} {tol : ℝ} {a q r : Arr ℝ} {junk : ℕ → ℝ} (ht : 0 < tol) (ha : n * n ≤ a.size)
    (hq : n * n ≤ q.size) (hr : n * n ≤ r.size) (hA : LowerBound n tol (a.cm n)) :
    Ok (arrayMgs Real.sqrt (fun v => decide (v < tol)) junk n a q r) fun p =>
      (sqMat n (p.2.1.cm n))ᵀ * sqMat n (p.2.1.cm n) = 1 ∧
      sqMat n (p.2.1.cm n) * sqMat n (p.2.2.cm n) = sqMat n (a.cm n) ∧
      (∀ i j, i < n → j < i → p.2.2.cm n i j = 0) ∧ ∀ j, j < n → tol ≤ p.2.2.cm n j j := by
  refine ((mgs_error ht ha hq hr (junk := junk)).conj (arrayMgs_spec ht ha hq hr)).mono ?_
  rintro ⟨a', q', r'⟩ ⟨he, -, -, -, h⟩
  simp only at h he ⊢
  have big := h.full ht hA
  refine ⟨?_, ?_, fun i j hi hj => h.up i j hi (by omega) hj, big⟩
  · ext i j
    rw [Matrix.mul_apply, Matrix.one_apply]
    simp only [Matrix.transpose_apply, sqMat, Matrix.of_apply]
    rw [← Finset.sum_range (fun l => q'.cm n l i * q'.cm n l j)]
    split
    · rename_i e; subst e; exact h.unit i i.2 (big i i.2)
    · rename_i e; exact h.orth i j i.2 j.2 fun e' => e (Fin.ext e')
  · ext i j
    rw [Matrix.mul_apply]
    have := (he j j.2).2 (big j j.2) i i.2
    rw [Finset.sum_range] at this
    exact this

/-- **C47.** The QR algorithm on a matrix of order at least 2 whose smallest singular value is at least `tol`: the matrix
it returns in `a` is the given one in another orthonormal basis, so it has the same characteristic polynomial and
eigenvalues; the iteration count is between 1 and `maxiter`, the reported error is the modulus of the element (1,0), and
is below `tol` unless the iterations were used up. -/
theorem qr_similar_result {n maxiter : ℕ} {tol ejunk : ℝ} {junk : ℕ → ℝ} {a q r : Arr ℝ} (ht : 0 < tol) (hn : 2 ≤ n)
    (hmax : 1 ≤ maxiter) (ha : n * n ≤ a.size) (hq : n * n ≤ q.size) (hr : n * n ≤ r.size) (hA : LowerBound n tol (a.cm n)) :
    Ok (arrayQr Real.sqrt (fun v => |v|) (fun v => decide (v < tol)) junk ejunk maxiter n a q r) fun s =>
      OrthSimilar (sqMat n (a.cm n)) (sqMat n (s.a.cm n)) ∧
      (sqMat n (s.a.cm n)).charpoly = (sqMat n (a.cm n)).charpoly ∧ 1 ≤ s.iter ∧ s.iter ≤ maxiter ∧
      s.err = |s.a.cm n 1 0| ∧ (s.err < tol ∨ s.iter = maxiter) := by
  refine (arrayQr_spec ht hn hmax ha hq hr hA).mono ?_
  rintro s ⟨-, h1, h2, h3, h4, h5⟩
  exact ⟨h1, h1.charpoly, h2, h3, h4, h5⟩

/-- **C47.** The QR algorithm keeps symmetry. -/
theorem qr_symmetric {n maxiter : ℕ} {tol ejunk : ℝ} {junk : ℕ → ℝ} {a q r : Arr ℝ} (ht : 0 < tol) (hn : 2 ≤ n)
    (hmax : 1 ≤ maxiter) (ha : n * n ≤ a.size) (hq : n * n ≤ q.size) (hr : n * n ≤ r.size) (hA : LowerBound n tol (a.cm n))
    (hs : ∀ i j, i < n → j < n → a.cm n i j = a.cm n j i) :
    Ok (arrayQr Real.sqrt (fun v => |v|) (fun v => decide (v < tol)) junk ejunk maxiter n a q r) fun s =>
      ∀ i j, i < n → j < n → s.a.cm n i j = s.a.cm n j i := by
  refine (arrayQr_spec ht hn hmax ha hq hr hA).mono ?_
  rintro s ⟨-, ⟨P, -, hP⟩, -⟩ i j hi hj
  have hA' : (sqMat n (a.cm n))ᵀ = sqMat n (a.cm n) := by
    ext i j
    exact hs j i j.2 i.2
  have : (sqMat n (s.a.cm n))ᵀ = sqMat n (s.a.cm n) := by
    rw [hP]
    simp only [Matrix.transpose_mul, Matrix.transpose_transpose, hA', Matrix.mul_assoc]
  exact congrFun (congrFun this ⟨j, hj⟩) ⟨i, hi⟩

/-- **C47.** Order 2: if the QR algorithm reports an error below `tol` then each diagonal element `e` of the result is an
approximate eigenvalue of `A`: `|det(e - A)| ≤ tol |a'(0,1)|`. -/
theorem qr_two {maxiter : ℕ} {tol ejunk : ℝ} {junk : ℕ → ℝ} {a q r : Arr ℝ} (ht : 0 < tol)
    (hmax : 1 ≤ maxiter) (ha : 4 ≤ a.size) (hq : 4 ≤ q.size) (hr : 4 ≤ r.size) (hA : LowerBound 2 tol (a.cm 2)) :
    Ok (arrayQr Real.sqrt (fun v => |v|) (fun v => decide (v < tol)) junk ejunk maxiter 2 a q r) fun s =>
      s.err < tol → ∀ i, i < 2 → |(sqMat 2 (a.cm 2)).charpoly.eval (s.a.cm 2 i i)| ≤ tol * |s.a.cm 2 0 1| := by
  refine (arrayQr_spec ht (le_refl 2) hmax ha hq hr hA).mono ?_
  rintro s ⟨-, h1, -, -, h4, -⟩ he i hi
  rw [← h1.charpoly, Matrix.eval_charpoly]
  have hdet : (Matrix.scalar (Fin 2) (s.a.cm 2 i i) - sqMat 2 (s.a.cm 2)).det = -(s.a.cm 2 1 0 * s.a.cm 2 0 1) := by
    rw [Matrix.det_fin_two]
    simp only [Matrix.sub_apply, Matrix.scalar_apply, Matrix.diagonal_apply, sqMat, Matrix.of_apply]
    rcases (by omega : i = 0 ∨ i = 1) with rfl | rfl <;> simp <;> ring
  rw [hdet, abs_neg, abs_mul, ← h4]
  exact mul_le_mul_of_nonneg_right he.le (abs_nonneg _)

/-- a matrix with zero first column: `Q = 0` and `R = 0` -/
theorem cgs_zero_first_column {n : ℕ} {tol : ℝ} {a q r : Arr ℝ} {junk : ℕ → ℝ} (ht : 0 < tol) (ha : n * n ≤ a.size)
    (hq : n * n ≤ q.size) (hr : n * n ≤ r.size) (hz : ∀ i, i < n → a.cm n i 0 = 0) :
    Ok (arrayCgs Real.sqrt (fun v => decide (v < tol)) junk n a q r) fun p => p.1.size = q.size ∧ p.2.size = r.size ∧
      ∀ i j, i < n → j < n → p.1.cm n i j = 0 ∧ p.2.cm n i j = 0 := by
  refine (arrayCgs_spec ht ha hq hr).mono ?_
  rintro ⟨q', r'⟩ ⟨e1, e2, m, hm, c3, -, c5⟩
  simp only at c3 c5 e1 e2 ⊢
  have hm0 : m = 0 := by
    by_contra hne
    have hd := (c3.diag 0 (by omega)).ne'
    have h0 : ∀ i, i < n → q'.cm n i 0 = 0 := by
      intro i hi
      have := c3.prod i 0 hi (by omega)
      rw [hz i hi, sum_eq_single 0 (fun l hl hne => by
        rw [c3.up l 0 (mem_range.1 hl) (by omega) (by omega), mul_zero]) (fun h => absurd (mem_range.2 (by omega)) h)] at this
      exact (mul_eq_zero.1 this).resolve_right hd
    have := c3.orth 0 0 (by omega) (by omega)
    rw [if_pos rfl, sum_eq_zero fun i hi => by rw [h0 i (mem_range.1 hi), zero_mul]] at this
    exact absurd this (by norm_num)
  subst hm0
  refine ⟨e1, e2, fun i j hi hj => ⟨c3.zq i j hi hj (Nat.zero_le _), ?_⟩⟩
  obtain ⟨-, ⟨w, w1, -, w3⟩, -⟩ := c5 (by omega)
  rcases Nat.eq_zero_or_pos j with rfl | hj0
  · rcases Nat.eq_zero_or_pos i with rfl | hi0
    · have hw : ∀ i, i < n → w i = 0 := fun i hi => by
        have := w1 i hi
        simpa [hz i hi] using this.symm
      rw [sum_eq_zero fun i hi => by rw [hw i (mem_range.1 hi), zero_mul]] at w3
      exact mul_self_eq_zero.1 w3.symm
    · exact c3.up i 0 hi hj hi0
  · exact c3.zr i j hi hj hj0

/-- **C47 (finding).** The QR algorithm on a matrix with zero first column, whatever the other columns: it returns the zero
matrix after one iteration and reports error 0. -/
theorem qr_zero_first_column {n maxiter : ℕ} {tol ejunk : ℝ} {junk : ℕ → ℝ} {a q r : Arr ℝ} (ht : 0 < tol) (hn : 2 ≤ n)
    (hmax : 1 ≤ maxiter) (ha : n * n ≤ a.size) (hq : n * n ≤ q.size) (hr : n * n ≤ r.size)
    (hz : ∀ i, i < n → a.cm n i 0 = 0) :
    Ok (arrayQr Real.sqrt (fun v => |v|) (fun v => decide (v < tol)) junk ejunk maxiter n a q r) fun s =>
      s.iter = 1 ∧ s.err = 0 ∧ ∀ i j, i < n → j < n → s.a.cm n i j = 0 := by
  unfold arrayQr
  refine Ok_loopB (fun k (s : QrSt ℝ) => k = 0 ∧ s = ⟨a, q, r, 0, ejunk⟩) ⟨rfl, rfl⟩ ?_ ?_
  · rintro k s - hk ⟨rfl, rfl⟩
    unfold qrStep
    simp only [Ok_bind]
    refine (cgs_zero_first_column ht ha hq hr hz).mono ?_
    rintro ⟨q', r'⟩ ⟨e1, e2, e3⟩
    simp only at e1 e2 e3
    refine (qrMul_spec (q := q') (r := r') ha (by omega) (by omega)).mono ?_
    rintro a' ⟨d1, d2⟩
    have h0 : ∀ i j, i < n → j < n → a'.cm n i j = 0 := fun i j hi hj => by
      rw [d2 i j hi hj]
      exact sum_eq_zero fun l hl => by rw [(e3 i l hi (mem_range.1 hl)).2, zero_mul]
    have h1n : 1 < n * n := lt_of_lt_of_le (by norm_num) (Nat.mul_le_mul hn hn)
    have h1 : a'.get 1 = 0 := by
      have := h0 1 0 (by omega) (by omega)
      simpa [Arr.cm] using this
    simp only [Ok_rd, Ok_pure, h1, abs_zero, ht, decide_true, if_true]
    exact ⟨by omega, trivial, trivial, h0⟩
  · rintro s ⟨h, -⟩
    omega

/-- **C47 (finding).** Order 1: `lis_array_qr` reads `a[1]`, which is outside an array of `n*n = 1` elements. -/
theorem qr_one_out_of_bounds {maxiter : ℕ} {tol ejunk : ℝ} {junk : ℕ → ℝ} {a q r : Arr ℝ} (ht : 0 < tol)
    (hmax : 1 ≤ maxiter) (ha : a.size = 1) (hq : 1 ≤ q.size) (hr : 1 ≤ r.size) :
    arrayQr Real.sqrt (fun v => |v|) (fun v => decide (v < tol)) junk ejunk maxiter 1 a q r = none := by
  obtain ⟨k, rfl⟩ : ∃ k, maxiter = k + 1 := ⟨maxiter - 1, by omega⟩
  have step : qrStep Real.sqrt (fun v => |v|) (fun v => decide (v < tol)) junk 1 ⟨a, q, r, 0, ejunk⟩ = none := by
    obtain ⟨c, hc, c1, c2, -⟩ := (arrayCgs_spec (n := 1) (junk := junk) ht ha.ge hq hr)
    obtain ⟨a', hm, d1, -⟩ := (qrMul_spec (n := 1) (q := c.1) (r := c.2) ha.ge (by omega) (by omega))
    have : a'.rd 1 = none := by
      unfold Arr.rd
      rw [if_neg (by omega)]
    simp [qrStep, hc, hm, this]
  unfold arrayQr loopB
  rw [Nat.sub_zero, iterB, step]
  rfl

/-! ## concrete cases -/

/-- `A = [[3,-4],[4,3]]` has smallest singular value 5 -/
example : LowerBound 2 (1 / 10 ^ 12) ((Arr.ofList [3, 4, -4, 3] : Arr ℝ).cm 2) := by
  intro x
  have e : ∀ i j : ℕ, (Arr.ofList [3, 4, -4, 3] : Arr ℝ).cm 2 i j = [(3 : ℝ), 4, -4, 3].getD (i + j * 2) default := fun i j => rfl
  simp only [sum_range_succ, sum_range_zero, zero_add, e]
  norm_num [List.getD]
  nlinarith [sq_nonneg (x 0), sq_nonneg (x 1)]

private def smallQ (v : ℚ) : Bool := decide (v < 1 / 10 ^ 12)
private def z9 : Arr ℚ := Arr.ofList [7, 7, 7, 7, 7, 7, 7, 7, 7]

/-- `[[3,1],[4,2]] = Q R`, by both -/
example : (arrayCgs sqrtQ smallQ (fun _ => 5) 2 (Arr.ofList [3, 4, 1, 2]) z9 z9).map
    (fun p => (p.1.toList.take 4, p.2.toList.take 4)) =
    some ([3 / 5, 4 / 5, -4 / 5, 3 / 5], [5, 0, 11 / 5, 2 / 5]) := by decide +kernel
example : (arrayMgs sqrtQ smallQ (fun _ => 5) 2 (Arr.ofList [3, 4, 1, 2]) z9 z9).map
    (fun p => (p.1.toList, p.2.1.toList.take 4, p.2.2.toList.take 4)) =
    some ([3, 4, -8 / 25, 6 / 25], [3 / 5, 4 / 5, -4 / 5, 3 / 5], [5, 0, 11 / 5, 2 / 5]) := by decide +kernel

/-- dependent columns: classical Gram-Schmidt loses the third column, modified Gram-Schmidt does not -/
example : (arrayCgs sqrtQ smallQ (fun _ => 5) 3 (Arr.ofList [3, 0, 0, 6, 0, 0, 1, 2, 0]) z9 z9).map
    (fun p => (p.1.toList, p.2.toList)) = some ([1, 0, 0, 0, 0, 0, 0, 0, 0], [3, 0, 0, 6, 0, 0, 0, 0, 0]) := by decide +kernel
example : (arrayMgs sqrtQ smallQ (fun _ => 5) 3 (Arr.ofList [3, 0, 0, 6, 0, 0, 1, 2, 0]) z9 z9).map
    (fun p => (p.2.1.toList, p.2.2.toList)) = some ([1, 0, 0, 0, 0, 0, 0, 1, 0], [3, 0, 0, 6, 0, 0, 1, 0, 2]) := by decide +kernel

/-- one QR iteration; the trace 5 and the determinant 2 are those of `A` -/
example : (arrayQr sqrtQ abs smallQ (fun _ => 5) 0 1 2 (Arr.ofList [3, 4, 1, 2]) z9 z9).map
    (fun s => (s.a.toList, s.iter, s.err)) =
    some ([119 / 25, 8 / 25, -67 / 25, 6 / 25], 1, 8 / 25) := by decide +kernel

/-- finding: the convergence test looks at the element (1,0) only.  `A = 1 ⊕ [[0,1],[1,0]]` is returned unchanged after one
iteration with error 0, although it is not triangular and its diagonal 1,0,0 is not its spectrum 1,1,-1. -/
theorem qr_tests_one_element : (arrayQr sqrtQ abs smallQ (fun _ => 5) 0 100000 3 (Arr.ofList [1, 0, 0, 0, 0, 1, 0, 1, 0]) z9 z9).map
    (fun s => (s.a.toList, s.iter, s.err)) = some ([1, 0, 0, 0, 0, 1, 0, 1, 0], 1, 0) := by decide +kernel

/-- finding: `[[0,0],[0,5]]` has the eigenvalue 5, the result is the zero matrix with error 0 -/
example : (arrayQr sqrtQ abs smallQ (fun _ => 5) 0 100000 2 (Arr.ofList [0, 0, 0, 5]) z9 z9).map
    (fun s => (s.a.toList, s.iter, s.err)) = some ([0, 0, 0, 0], 1, 0) := by decide +kernel

end Lis
