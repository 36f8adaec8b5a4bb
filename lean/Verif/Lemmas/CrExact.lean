import Verif.Lemmas.CgExact
import Mathlib.LinearAlgebra.Matrix.ToLinearEquiv
import Mathlib.LinearAlgebra.Matrix.NonsingularInverse

/-! CR for `A` with preconditioner `M` is CG for `A M A` with preconditioner `A⁻¹`. -/

namespace Lis
variable {R : Type} {n : ℕ} [Field R] [LinearOrder R] [IsStrictOrderedRing R]

open Matrix

theorem Spd.inj {A : Matrix (Fin n) (Fin n) R} (hA : Spd A) {x : Fin n → R} (h : A *ᵥ x = 0) : x = 0 := by
  by_contra hne
  have := hA.pos x hne
  rw [h, dotProduct_zero] at this
  exact lt_irrefl _ this

theorem Spd.unit {A : Matrix (Fin n) (Fin n) R} (hA : Spd A) : IsUnit A.det := by
  rw [isUnit_iff_ne_zero]
  intro h
  obtain ⟨v, hv, h0⟩ := Matrix.exists_mulVec_eq_zero_iff.2 h
  exact hv (hA.inj h0)

theorem Spd.inv {A : Matrix (Fin n) (Fin n) R} (hA : Spd A) : Spd A⁻¹ := by
  refine ⟨by rw [transpose_nonsing_inv, hA.symm], fun x hx => ?_⟩
  have e : A *ᵥ (A⁻¹ *ᵥ x) = x := by rw [mulVec_mulVec, mul_nonsing_inv _ hA.unit, one_mulVec]
  have hne : A⁻¹ *ᵥ x ≠ 0 := by
    intro h
    rw [h, mulVec_zero] at e
    exact hx e.symm
  have := hA.pos _ hne
  rw [e, dotProduct_comm] at this
  exact this

theorem Spd.inv_mul {A : Matrix (Fin n) (Fin n) R} (hA : Spd A) (x : Fin n → R) : A⁻¹ *ᵥ (A *ᵥ x) = x := by
  rw [mulVec_mulVec, nonsing_inv_mul _ hA.unit, one_mulVec]

theorem Spd.sandwich {A M : Matrix (Fin n) (Fin n) R} (hA : Spd A) (hM : Spd M) : Spd (A * M * A) := by
  refine ⟨by rw [transpose_mul, transpose_mul, hA.symm, hM.symm, Matrix.mul_assoc], fun x hx => ?_⟩
  have hne : A *ᵥ x ≠ 0 := fun h => hx (hA.inj h)
  have := hM.pos _ hne
  rw [← mulVec_mulVec, ← mulVec_mulVec, hA.swap, dotProduct_comm, dotProduct_comm] 
  rwa [dotProduct_comm] at this

/-- `xᵀ (A M A) y = (A x)ᵀ M (A y)` -/
theorem Spd.sandwich_dot {A M : Matrix (Fin n) (Fin n) R} (hA : Spd A) (x y : Fin n → R) :
    x ⬝ᵥ (A * M * A) *ᵥ y = (A *ᵥ x) ⬝ᵥ M *ᵥ (A *ᵥ y) := by
  rw [← mulVec_mulVec, ← mulVec_mulVec, hA.swap, dotProduct_comm]

end Lis
