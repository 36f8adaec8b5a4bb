import Verif.Spec.Esolver
import Verif.Spec.SolverDoc
import Mathlib.LinearAlgebra.Matrix.Notation
import Mathlib.Data.Real.Sqrt

/-!
# Eigensolvers in real arithmetic
-/

namespace Lis
open Matrix
variable {M : Type} {n : ℕ}

/-- real arithmetic for the scalar functions -/
noncomputable instance instEigOpsReal : EigOps ℝ ℝ where
  fabs := fun x => |x|
  ofS := id
  sqrt := Real.sqrt

/-- Euclidean norm -/
noncomputable def nrm (v : Fin n → ℝ) : ℝ := √(v ⬝ᵥ v)

/-- the calls compute what they say, in real arithmetic, for the matrices `A m = mat false m` and `B m = mat true m`;
shifting changes `A` to `A - a C`, where `C` is the identity (`lis_matrix_shift_diagonal`) or `B`
(`lis_matrix_shift_matrix`). Products with `B` are spoken of separately. -/
structure EKit.Exact (K : EKit ℝ ℝ M n) (mat : Bool → M → Matrix (Fin n) (Fin n) ℝ)
    (C : M → Matrix (Fin n) (Fin n) ℝ) : Prop where
  dot : ∀ x y, K.base.dot x y = x ⬝ᵥ y
  nrm2 : ∀ x, K.base.nrm2 x = nrm x
  mv : ∀ m x, K.mv false m x = mat false m *ᵥ x
  shift : ∀ a m, mat false (K.shift a m) = mat false m - a • C m
  shiftC : ∀ a m, C (K.shift a m) = C m

end Lis
