import Verif.Spec.EsolverExact
import Verif.Lemmas.Esolver
import Mathlib.Analysis.InnerProductSpace.PiL2

namespace Lis
open Matrix
variable {M : Type} {n : ℕ}

theorem dot_self_nonneg (v : Fin n → ℝ) : 0 ≤ v ⬝ᵥ v :=
  Finset.sum_nonneg fun i _ => mul_self_nonneg (v i)

theorem nrm_eq (v : Fin n → ℝ) : nrm v = ‖(WithLp.toLp 2 v : EuclideanSpace ℝ (Fin n))‖ := by
  rw [EuclideanSpace.norm_eq]
  unfold nrm dotProduct
  congr 1
  exact Finset.sum_congr rfl fun i _ => by simp [sq]

theorem nrm_nonneg (v : Fin n → ℝ) : 0 ≤ nrm v := Real.sqrt_nonneg _

theorem nrm_sq (v : Fin n → ℝ) : nrm v * nrm v = v ⬝ᵥ v := Real.mul_self_sqrt (dot_self_nonneg v)

theorem nrm_smul (a : ℝ) (v : Fin n → ℝ) : nrm (a • v) = |a| * nrm v := by
  rw [nrm_eq, nrm_eq, WithLp.toLp_smul, norm_smul, Real.norm_eq_abs]

theorem nrm_neg (v : Fin n → ℝ) : nrm (-v) = nrm v := by
  unfold nrm; simp

theorem nrm_add_le (u v : Fin n → ℝ) : nrm (u + v) ≤ nrm u + nrm v := by
  rw [nrm_eq, nrm_eq, nrm_eq, WithLp.toLp_add]; exact norm_add_le _ _

theorem nrm_eq_zero {v : Fin n → ℝ} : nrm v = 0 ↔ v = 0 := by
  rw [nrm_eq, norm_eq_zero, WithLp.toLp_eq_zero]

theorem abs_dot_le (u v : Fin n → ℝ) : |u ⬝ᵥ v| ≤ nrm u * nrm v := by
  have h : (u ⬝ᵥ v) * (u ⬝ᵥ v) ≤ (nrm u * nrm v) * (nrm u * nrm v) := by
    have := Finset.sum_mul_sq_le_sq_mul_sq Finset.univ u v
    have e1 : (∑ i, u i ^ 2) = nrm u * nrm u := by rw [nrm_sq]; exact Finset.sum_congr rfl fun i _ => sq _
    have e2 : (∑ i, v i ^ 2) = nrm v * nrm v := by rw [nrm_sq]; exact Finset.sum_congr rfl fun i _ => sq _
    rw [e1, e2] at this
    calc (u ⬝ᵥ v) * (u ⬝ᵥ v) = (∑ i, u i * v i) ^ 2 := by rw [sq]; rfl
      _ ≤ _ := this
      _ = _ := by ring
  exact abs_le_of_sq_le_sq' (by nlinarith [h]) (mul_nonneg (nrm_nonneg u) (nrm_nonneg v)) |> abs_le.mpr

variable {K : EKit ℝ ℝ M n} {mat : Bool → M → Matrix (Fin n) (Fin n) ℝ} {C : M → Matrix (Fin n) (Fin n) ℝ}

theorem smulV_eq (a : ℝ) (u : Fin n → ℝ) : smulV a u = a • u := rfl

theorem EKit.Exact.unit (h : K.Exact mat C) (u : Fin n → ℝ) : unit K.base u = (1 / nrm u) • u := by
  unfold Lis.unit
  rw [h.nrm2]; rfl

theorem nrm_unit {u : Fin n → ℝ} (hu : u ≠ 0) : nrm ((1 / nrm u) • u) = 1 := by
  have : nrm u ≠ 0 := fun h => hu (nrm_eq_zero.1 h)
  rw [nrm_smul, abs_of_nonneg (by positivity [nrm_nonneg u])]
  field_simp

theorem unit_of_unit {u : Fin n → ℝ} (hu : nrm u = 1) : (1 / nrm u) • u = u := by
  rw [hu]; simp

theorem EKit.Exact.relRes (h : K.Exact mat C) (t : ℝ) (v y : Fin n → ℝ) :
    relRes K.base t v y = nrm (y - t • v) / |t| := by
  unfold Lis.relRes
  rw [h.nrm2]
  congr 2
  funext i
  simp; ring

theorem EKit.Exact.shiftBack (h : K.Exact mat C) (a : ℝ) (m : M) :
    mat false (K.shift (-a) (K.shift a m)) = mat false m := by
  rw [h.shift, h.shift, h.shiftC]; simp

theorem EKit.Exact.shiftIf (h : K.Exact mat C) (o : EOpts ℝ ℝ) (a : ℝ) (ha : o.sigma = 0 → a = 0) (m : M) :
    mat false (shiftIf K o a m) = mat false m - a • C m := by
  unfold Lis.shiftIf
  split
  · rename_i h0; rw [ha h0]; simp
  · exact h.shift a m

theorem EKit.Exact.shiftIfC (h : K.Exact mat C) (o : EOpts ℝ ℝ) (a : ℝ) (m : M) :
    C (Lis.shiftIf K o a m) = C m := by
  unfold Lis.shiftIf
  split
  · rfl
  · exact h.shiftC a m

end Lis
