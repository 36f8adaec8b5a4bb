import Mathlib.Algebra.BigOperators.Intervals
import Mathlib.Algebra.Star.Basic

/-! Triangular systems, independently of any storage format. `D` is the diagonal, `a` the strict triangle. -/

namespace Lis
open Finset

/-- `(D + a) x = b` -/
def SolvesTri {R : Type} [NonUnitalNonAssocSemiring R] (n : ℕ) (D : ℕ → R) (a : ℕ → ℕ → R) (x b : ℕ → R) : Prop :=
  ∀ i, i < n → D i * x i + ∑ j ∈ range n, a i j * x j = b i

/-- `(D + a)ᴴ x = b` -/
def SolvesTriH {R : Type} [NonUnitalNonAssocSemiring R] [Star R] (n : ℕ) (D : ℕ → R) (a : ℕ → ℕ → R)
    (x b : ℕ → R) : Prop :=
  ∀ i, i < n → star (D i) * x i + ∑ j ∈ range n, star (a j i) * x j = b i

/-- `(D + l) D⁻¹ (D + u) x = b` -/
def SolvesSsor {R : Type} [NonUnitalNonAssocSemiring R] (n : ℕ) (D : ℕ → R) (l u : ℕ → ℕ → R) (x b : ℕ → R) : Prop :=
  ∃ y, SolvesTri n D l y b ∧ SolvesTri n D u x fun i => D i * y i

/-- `((D + l) D⁻¹ (D + u))ᴴ x = (D + u)ᴴ D⁻ᴴ (D + l)ᴴ x = b` -/
def SolvesSsorH {R : Type} [NonUnitalNonAssocSemiring R] [Star R] (n : ℕ) (D : ℕ → R) (l u : ℕ → ℕ → R)
    (x b : ℕ → R) : Prop :=
  ∃ y, SolvesTriH n D u y b ∧ SolvesTriH n D l x fun i => star (D i) * y i

end Lis
