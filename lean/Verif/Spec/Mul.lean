import Mathlib.Algebra.BigOperators.Intervals
import Mathlib.Algebra.Star.Basic

/-! What the kernels have to compute, independently of any storage format. -/

namespace Lis
open Finset

/-- `y = A x` for an `n × m` matrix `a` -/
def IsMul {R : Type} [NonUnitalNonAssocSemiring R] (n m : ℕ) (a : ℕ → ℕ → R) (x y : ℕ → R) : Prop :=
  ∀ i, i < n → y i = ∑ j ∈ range m, a i j * x j

/-- `y = Aᴴ x` for an `n × m` matrix `a` -/
def IsMulH {R : Type} [NonUnitalNonAssocSemiring R] [Star R] (n m : ℕ) (a : ℕ → ℕ → R)
    (x y : ℕ → R) : Prop :=
  ∀ j, j < m → y j = ∑ i ∈ range n, star (a i j) * x i

/-- nothing at or beyond `n` changed -/
def SameFrom {R : Type} (n : ℕ) (y y' : ℕ → R) : Prop := ∀ i, n ≤ i → y' i = y i

end Lis
