import Verif.Lemmas.EsolverExact
import Verif.Lemmas.EsolverCg
import Mathlib.Analysis.Matrix.Spectrum

/-! real arithmetic: best approximation, eigenvalue enclosure, the invariants of CR and CG -/

namespace Lis
open Matrix
variable {M : Type} {n : ℕ}

/-- `⟨u,v⟩/⟨v,v⟩` is the best coefficient -/
theorem nrm_best (u v : Fin n → ℝ) (c : ℝ) : nrm (u - (u ⬝ᵥ v / v ⬝ᵥ v) • v) ≤ nrm (u - c • v) := by
  unfold nrm
  apply Real.sqrt_le_sqrt
  by_cases h : v ⬝ᵥ v = 0
  · have hv : v = 0 := nrm_eq_zero.1 (by unfold nrm; rw [h]; simp)
    subst hv; simp
  · have hp : 0 < v ⬝ᵥ v := lt_of_le_of_ne (dot_self_nonneg v) (Ne.symm h)
    have ex : ∀ a : ℝ, (u - a • v) ⬝ᵥ (u - a • v) = u ⬝ᵥ u - 2 * a * (u ⬝ᵥ v) + a * a * (v ⬝ᵥ v) := by
      intro a
      simp only [sub_dotProduct, dotProduct_sub, smul_dotProduct, dotProduct_smul, smul_eq_mul, dotProduct_comm v u]
      ring
    rw [ex, ex]
    obtain ⟨a, ha⟩ : ∃ a, a = u ⬝ᵥ v / v ⬝ᵥ v := ⟨_, rfl⟩
    rw [← ha]
    have e : u ⬝ᵥ v = a * v ⬝ᵥ v := by rw [ha]; field_simp
    rw [e]
    have := mul_nonneg (mul_self_nonneg (a - c)) hp.le
    nlinarith

theorem nrm_best_zero (u v : Fin n → ℝ) : nrm (u - (u ⬝ᵥ v / v ⬝ᵥ v) • v) ≤ nrm u := by
  simpa using nrm_best u v 0

/-- a symmetric matrix has an eigenvalue within `‖A x - l x‖/‖x‖` of `l` -/
theorem symm_eigenvalue_near {A : Matrix (Fin n) (Fin n) ℝ} (hA : A.IsSymm) (x : Fin n → ℝ) (hx : x ≠ 0) (l : ℝ) :
    ∃ (mu : ℝ) (w : Fin n → ℝ), w ≠ 0 ∧ A *ᵥ w = mu • w ∧ |mu - l| * nrm x ≤ nrm (A *ᵥ x - l • x) := by
  have hH : A.IsHermitian := by
    rw [Matrix.IsHermitian, Matrix.conjTranspose_eq_transpose_of_trivial]; exact hA
  have : Nonempty (Fin n) := by
    by_contra hn
    rw [not_nonempty_iff] at hn
    exact hx (Subsingleton.elim _ _)
  obtain ⟨b, hb⟩ : ∃ b, b = hH.eigenvectorBasis := ⟨_, rfl⟩
  obtain ⟨i, hi⟩ := Finite.exists_min fun i => |hH.eigenvalues i - l|
  refine ⟨hH.eigenvalues i, (b i).ofLp, ?_, ?_, ?_⟩
  · intro h
    have h1 : ‖b i‖ = 1 := b.norm_eq_one i
    have h2 : b i = 0 := by
      ext j; exact congrFun h j
    rw [h2] at h1; simp at h1
  · rw [hb]; exact hH.mulVec_eigenvectorBasis i
  · -- coordinates
    have hc : ∀ j, (b j).ofLp ⬝ᵥ (A *ᵥ x - l • x) = (hH.eigenvalues j - l) * ((b j).ofLp ⬝ᵥ x) := by
      intro j
      have e : (b j).ofLp ⬝ᵥ A *ᵥ x = hH.eigenvalues j * ((b j).ofLp ⬝ᵥ x) := by
        rw [Matrix.dotProduct_mulVec, ← Matrix.mulVec_transpose, hA.eq, hb, hH.mulVec_eigenvectorBasis j, smul_dotProduct]
        rfl
      rw [dotProduct_sub, dotProduct_smul, e, smul_eq_mul]; ring
    have hsq : ∀ v : Fin n → ℝ, nrm v ^ 2 = ∑ j, ((b j).ofLp ⬝ᵥ v) ^ 2 := by
      intro v
      rw [nrm_eq, ← b.sum_sq_norm_inner_right]
      refine Finset.sum_congr rfl fun j _ => ?_
      rw [EuclideanSpace.inner_eq_star_dotProduct]
      simp [dotProduct_comm]
    have h2 : (|hH.eigenvalues i - l| * nrm x) ^ 2 ≤ nrm (A *ᵥ x - l • x) ^ 2 := by
      rw [mul_pow, hsq, hsq, Finset.mul_sum]
      refine Finset.sum_le_sum fun j _ => ?_
      rw [hc, mul_pow]
      refine mul_le_mul_of_nonneg_right ?_ (sq_nonneg _)
      rw [← sq_abs (hH.eigenvalues j - l)]
      exact pow_le_pow_left₀ (abs_nonneg _) (hi j) 2
    exact le_of_sq_le_sq h2 (nrm_nonneg _)

end Lis
