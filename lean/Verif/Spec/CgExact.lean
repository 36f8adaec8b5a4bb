import Verif.Spec.Solver
import Mathlib.LinearAlgebra.Matrix.DotProduct
import Mathlib.Algebra.Order.Field.Basic

/-!
# Symmetric positive definite systems, in exact arithmetic
-/

namespace Lis
variable {R S : Type} {n : ℕ} [Field R] [LinearOrder R] [IsStrictOrderedRing R]

open Matrix

/-- symmetric and positive definite -/
structure Spd (A : Matrix (Fin n) (Fin n) R) : Prop where
  symm : Aᵀ = A
  pos : ∀ x, x ≠ 0 → 0 < x ⬝ᵥ A *ᵥ x

/-- exact arithmetic: the calls compute the product with `A`, the product with the preconditioning matrix `M`, and the
ordinary inner product -/
structure Kit.Exact (K : Kit R S n) (A M : Matrix (Fin n) (Fin n) R) : Prop where
  mv : ∀ x, K.mv x = A *ᵥ x
  ps : ∀ x, K.ps x = M *ᵥ x
  dot : ∀ x y, K.dot x y = x ⬝ᵥ y
  nhdot : ∀ x y, K.nhdot x y = x ⬝ᵥ y

/-- the square of the error of `x` in the energy norm of `A`, `xs` being the solution -/
def energy (A : Matrix (Fin n) (Fin n) R) (xs x : Fin n → R) : R := (x - xs) ⬝ᵥ A *ᵥ (x - xs)

/-- the square of the residual in the norm of `M` (of the Euclidean norm, for the identity) -/
def residSq (A M : Matrix (Fin n) (Fin n) R) (b x : Fin n → R) : R := (b - A *ᵥ x) ⬝ᵥ M *ᵥ (b - A *ᵥ x)

end Lis
