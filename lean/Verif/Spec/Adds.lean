import Mathlib.LinearAlgebra.Matrix.DotProduct
import Mathlib.Algebra.BigOperators.Group.Finset.Basic

/-! What additive Schwarz preconditioning stands for: a fixed number of steps of iterative refinement -/

namespace Lis
open Finset Matrix
variable {R : Type} {n : ℕ}

/-- `k` steps of `X ← X + P(b - A X)` from `X = 0` -/
def addsIter [Ring R] (A P : (Fin n → R) → Fin n → R) (b : Fin n → R) : ℕ → Fin n → R
  | 0 => 0
  | k + 1 => addsIter A P b k + P (b - A (addsIter A P b k))

/-- `Σ_{j<k} (I - M A)^j M`, for the inner preconditioning matrix `M` -/
def addsMat [Ring R] (A M : Matrix (Fin n) (Fin n) R) (k : ℕ) : Matrix (Fin n) (Fin n) R :=
  ∑ j ∈ range k, (1 - M * A) ^ j * M

end Lis
