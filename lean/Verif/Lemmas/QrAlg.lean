import Verif.Lemmas.GramSchmidt3
import Mathlib.LinearAlgebra.Matrix.NonsingularInverse
import Mathlib.LinearAlgebra.Matrix.Charpoly.Basic

namespace Lis
open Finset Matrix

theorem qrElem_spec {n i j : ℕ} {q r a : Arr ℝ} (ha : n * n ≤ a.size) (hq : n * n ≤ q.size) (hr : n * n ≤ r.size)
    (hi : i < n) (hj : j < n) :
    Ok (qrElem n i j q r a) fun a' => a' = a.set (i + j * n) (∑ k ∈ range n, r.cm n i k * q.cm n k j) := by
  unfold qrElem
  simp only [Ok_bind, Ok_wr]
  refine ⟨el_lt ha hi hj, ?_⟩
  refine Ok_loop_le (fun m x => x = a.set (i + j * n) (∑ k ∈ range m, r.cm n i k * q.cm n k j)) (Nat.zero_le _)
    (by simp) ?_ fun x h => h
  rintro m x - hm rfl
  simp only [Ok_bind, Ok_rd, Ok_wr, Arr.set_size]
  refine ⟨el_lt ha hi hj, el_lt hr hi hm, el_lt hq hm hj, el_lt ha hi hj, ?_⟩
  rw [sum_range_succ, Arr.set_get_self]
  simp only [Arr.set, Arr.cm]
  congr 1
  funext p
  split <;> rfl

theorem qrMul_spec {n : ℕ} {q r a : Arr ℝ} (ha : n * n ≤ a.size) (hq : n * n ≤ q.size) (hr : n * n ≤ r.size) :
    Ok (qrMul n q r a) fun a' => a'.size = a.size ∧
      ∀ i j, i < n → j < n → a'.cm n i j = ∑ k ∈ range n, r.cm n i k * q.cm n k j := by
  unfold qrMul
  refine Ok_loop_le (fun J a' => a'.size = a.size ∧
      ∀ i j, i < n → j < n → j < J → a'.cm n i j = ∑ k ∈ range n, r.cm n i k * q.cm n k j) (Nat.zero_le _)
    ⟨rfl, fun i j _ _ h => by omega⟩ ?_ fun x h => ⟨h.1, fun i j hi hj => h.2 i j hi hj hj⟩
  rintro J b - hJ ⟨h1, h2⟩
  refine Ok_loop_le (fun I a' => a'.size = a.size ∧
      ∀ i j, i < n → j < n → (j < J ∨ (j = J ∧ i < I)) → a'.cm n i j = ∑ k ∈ range n, r.cm n i k * q.cm n k j) (Nat.zero_le _)
    ⟨h1, fun i j hi hj h => h2 i j hi hj (by omega)⟩ ?_ fun x h => ⟨h.1, fun i j hi hj hlt => h.2 i j hi hj (by omega)⟩
  rintro I c - hI ⟨h3, h4⟩
  refine (qrElem_spec (by omega) hq hr hI hJ).mono ?_
  rintro x rfl
  refine ⟨by rw [Arr.set_size, h3], fun i j hi hj hor => ?_⟩
  simp only [Arr.cm, Arr.set_get]
  split
  · rename_i e
    obtain ⟨rfl, rfl⟩ := cm_inj hi hI e
    rfl
  · rename_i e
    exact h4 i j hi hj (by
      rcases hor with h | ⟨rfl, h⟩
      · exact Or.inl h
      · refine Or.inr ⟨rfl, ?_⟩
        rcases Nat.lt_or_ge i I with h' | h'
        · exact h'
        · exact absurd (by rw [show i = I by omega]) e)

theorem sqMat_qr {n : ℕ} {a q r : ℕ → ℕ → ℝ} (h : QrCols n n a q r) :
    (sqMat n q)ᵀ * sqMat n q = 1 ∧ sqMat n q * sqMat n r = sqMat n a := by
  constructor
  · ext i j
    rw [Matrix.mul_apply, Matrix.one_apply]
    have := h.orth i j i.2 j.2
    rw [Finset.sum_range] at this
    simp only [Matrix.transpose_apply, sqMat, Matrix.of_apply]
    rw [this]
    simp only [Fin.ext_iff]
  · ext i j
    rw [Matrix.mul_apply]
    have := h.prod i j i.2 j.2
    rw [Finset.sum_range] at this
    exact this

theorem lowerBound_mat {n : ℕ} {t : ℝ} {a : ℕ → ℕ → ℝ} :
    LowerBound n t a ↔ ∀ x : Fin n → ℝ, t ^ 2 * (x ⬝ᵥ x) ≤ (sqMat n a *ᵥ x) ⬝ᵥ (sqMat n a *ᵥ x) := by
  have conv : ∀ x : ℕ → ℝ, (t ^ 2 * ∑ j ∈ range n, x j ^ 2 ≤ ∑ i ∈ range n, (∑ j ∈ range n, a i j * x j) ^ 2) ↔
      t ^ 2 * ((fun i : Fin n => x i) ⬝ᵥ fun i => x i) ≤ (sqMat n a *ᵥ fun i => x i) ⬝ᵥ (sqMat n a *ᵥ fun i => x i) := by
    intro x
    simp only [dotProduct, Matrix.mulVec, sqMat, Matrix.of_apply, Finset.sum_range, pow_two]
  constructor
  · intro h x
    have := (conv fun i => if hi : i < n then x ⟨i, hi⟩ else 0).1 (h _)
    simpa using this
  · intro h x
    exact (conv x).2 (h _)

/-- one QR step is an orthogonal similarity -/
theorem qr_similar {n : ℕ} {Q R A B : Matrix (Fin n) (Fin n) ℝ} (h1 : Qᵀ * Q = 1) (h2 : Q * R = A) (h3 : B = R * Q) :
    B = Qᵀ * A * Q := by
  rw [h3, ← h2, ← Matrix.mul_assoc, h1, Matrix.one_mul]

theorem orth_dot {n : ℕ} {P : Matrix (Fin n) (Fin n) ℝ} (h : Pᵀ * P = 1) (x : Fin n → ℝ) : (P *ᵥ x) ⬝ᵥ (P *ᵥ x) = x ⬝ᵥ x := by
  rw [Matrix.dotProduct_mulVec, ← Matrix.mulVec_transpose, Matrix.mulVec_mulVec, h, Matrix.one_mulVec]

theorem lower_similar {n : ℕ} {t : ℝ} {P A : Matrix (Fin n) (Fin n) ℝ} (hP : Pᵀ * P = 1)
    (hA : ∀ x : Fin n → ℝ, t ^ 2 * (x ⬝ᵥ x) ≤ (A *ᵥ x) ⬝ᵥ (A *ᵥ x)) (x : Fin n → ℝ) :
    t ^ 2 * (x ⬝ᵥ x) ≤ ((Pᵀ * A * P) *ᵥ x) ⬝ᵥ ((Pᵀ * A * P) *ᵥ x) := by
  have hP' : Pᵀᵀ * Pᵀ = 1 := by rw [Matrix.transpose_transpose]; exact mul_eq_one_comm.1 hP
  rw [← orth_dot hP x, ← Matrix.mulVec_mulVec, ← Matrix.mulVec_mulVec, orth_dot hP']
  exact hA _

theorem OrthSimilar.refl {n : ℕ} (A : Matrix (Fin n) (Fin n) ℝ) : OrthSimilar A A := ⟨1, by simp, by simp⟩

theorem OrthSimilar.trans {n : ℕ} {A B C : Matrix (Fin n) (Fin n) ℝ} (h1 : OrthSimilar A B) (h2 : OrthSimilar B C) :
    OrthSimilar A C := by
  obtain ⟨P, hP, rfl⟩ := h1
  obtain ⟨S, hS, rfl⟩ := h2
  refine ⟨P * S, ?_, ?_⟩
  · rw [Matrix.transpose_mul, Matrix.mul_assoc, ← Matrix.mul_assoc Pᵀ, hP, Matrix.one_mul, hS]
  · simp only [Matrix.transpose_mul, Matrix.mul_assoc]

theorem OrthSimilar.charpoly {n : ℕ} {A B : Matrix (Fin n) (Fin n) ℝ} (h : OrthSimilar A B) : B.charpoly = A.charpoly := by
  obtain ⟨P, hP, rfl⟩ := h
  rw [Matrix.mul_assoc, Matrix.charpoly_mul_comm, Matrix.mul_assoc, mul_eq_one_comm.1 hP, Matrix.mul_one]

theorem qrStep_spec {n : ℕ} {tol : ℝ} {junk : ℕ → ℝ} {s : QrSt ℝ} (ht : 0 < tol) (hn : 2 ≤ n) (ha : n * n ≤ s.a.size)
    (hq : n * n ≤ s.q.size) (hr : n * n ≤ s.r.size) (hA : LowerBound n tol (s.a.cm n)) :
    Ok (qrStep Real.sqrt (fun v => |v|) (fun v => decide (v < tol)) junk n s) fun p =>
      p.2.a.size = s.a.size ∧ p.2.q.size = s.q.size ∧ p.2.r.size = s.r.size ∧ p.2.iter = s.iter + 1 ∧
      p.2.err = |p.2.a.cm n 1 0| ∧ (p.1 = true ↔ p.2.err < tol) ∧
      OrthSimilar (sqMat n (s.a.cm n)) (sqMat n (p.2.a.cm n)) ∧ LowerBound n tol (p.2.a.cm n) := by
  unfold qrStep
  simp only [Ok_bind]
  refine (arrayCgs_spec ht ha hq hr).mono ?_
  rintro ⟨q, r⟩ ⟨c1, c2, m, hm, c3, c4, c5⟩
  simp only at c1 c2 c3 c4 c5
  have hmn : m = n := c3.full hm ht c5 hA
  subst hmn
  refine (qrMul_spec (q := q) (r := r) ha (by omega) (by omega)).mono ?_
  rintro a' ⟨d1, d2⟩
  have h1n : 1 < m * m := lt_of_lt_of_le (by norm_num) (Nat.mul_le_mul hn hn)
  simp only [Ok_rd, Ok_pure]
  obtain ⟨o1, o2⟩ := sqMat_qr c3
  have hB : sqMat m (a'.cm m) = sqMat m (r.cm m) * sqMat m (q.cm m) := by
    ext i j
    rw [Matrix.mul_apply]
    have := d2 i j i.2 j.2
    rw [Finset.sum_range] at this
    exact this
  have hS := qr_similar o1 o2 hB
  refine ⟨by omega, d1, c1, c2, trivial, ?_, by simp, ⟨_, o1, hS⟩, ?_⟩
  · simp [Arr.cm]
  · rw [lowerBound_mat] at hA ⊢
    rw [hS]
    exact lower_similar o1 hA

/-- `lis_array_qr` on a matrix whose smallest singular value is at least `tol` -/
theorem arrayQr_spec {n maxiter : ℕ} {tol ejunk : ℝ} {junk : ℕ → ℝ} {a q r : Arr ℝ} (ht : 0 < tol) (hn : 2 ≤ n)
    (hmax : 1 ≤ maxiter) (ha : n * n ≤ a.size) (hq : n * n ≤ q.size) (hr : n * n ≤ r.size) (hA : LowerBound n tol (a.cm n)) :
    Ok (arrayQr Real.sqrt (fun v => |v|) (fun v => decide (v < tol)) junk ejunk maxiter n a q r) fun s =>
      s.a.size = a.size ∧ OrthSimilar (sqMat n (a.cm n)) (sqMat n (s.a.cm n)) ∧ 1 ≤ s.iter ∧ s.iter ≤ maxiter ∧
      s.err = |s.a.cm n 1 0| ∧ (s.err < tol ∨ s.iter = maxiter) := by
  unfold arrayQr
  refine Ok_loopB (fun k (s : QrSt ℝ) => s.a.size = a.size ∧ s.q.size = q.size ∧ s.r.size = r.size ∧ s.iter = k ∧
    OrthSimilar (sqMat n (a.cm n)) (sqMat n (s.a.cm n)) ∧ LowerBound n tol (s.a.cm n) ∧
    (1 ≤ k → s.err = |s.a.cm n 1 0|)) ⟨rfl, rfl, rfl, rfl, OrthSimilar.refl _, hA, fun h => by omega⟩ ?_ ?_
  · rintro k s - hk ⟨s1, s2, s3, s4, s5, s6, -⟩
    refine (qrStep_spec ht hn (by omega) (by omega) (by omega) s6).mono ?_
    rintro ⟨b, s'⟩ ⟨t1, t2, t3, t4, t5, t6, t7, t8⟩
    simp only at t1 t2 t3 t4 t5 t6 t7 t8
    cases b
    · simp only [Bool.false_eq_true, if_false]
      exact ⟨by omega, by omega, by omega, by omega, s5.trans t7, t8, fun _ => t5⟩
    · simp only [if_true]
      exact ⟨by omega, s5.trans t7, by omega, by omega, t5, Or.inl (t6.1 rfl)⟩
  · rintro s ⟨s1, s2, s3, s4, s5, s6, s7⟩
    rw [Nat.zero_max] at s4 s7
    exact ⟨s1, s5, by omega, by omega, s7 hmax, Or.inr s4⟩

end Lis
