import Mathlib.Algebra.BigOperators.Intervals
import Mathlib.Algebra.Star.Basic

/-! Block triangular systems, independently of any storage format.  `D` is the block diagonal, `a` the rest. -/

namespace Lis
open Finset

/-- `(D + a) x = b` -/
def SolvesTriM {R : Type} [NonUnitalNonAssocSemiring R] (n : ℕ) (D a : ℕ → ℕ → R) (x b : ℕ → R) : Prop :=
  ∀ i, i < n → ∑ j ∈ range n, D i j * x j + ∑ j ∈ range n, a i j * x j = b i

/-- `(D + l) D⁻¹ (D + u) x = b` -/
def SolvesSsorM {R : Type} [NonUnitalNonAssocSemiring R] (n : ℕ) (D l u : ℕ → ℕ → R) (x b : ℕ → R) : Prop :=
  ∃ y, SolvesTriM n D l y b ∧ SolvesTriM n D u x fun i => ∑ j ∈ range n, D i j * y j

/-- `(D + a)ᴴ x = b` -/
def SolvesTriMH {R : Type} [NonUnitalNonAssocSemiring R] [Star R] (n : ℕ) (D a : ℕ → ℕ → R) (x b : ℕ → R) : Prop :=
  ∀ i, i < n → ∑ j ∈ range n, star (D j i) * x j + ∑ j ∈ range n, star (a j i) * x j = b i

/-- `((D + l) D⁻¹ (D + u))ᴴ x = (D + u)ᴴ D⁻ᴴ (D + l)ᴴ x = b` -/
def SolvesSsorMH {R : Type} [NonUnitalNonAssocSemiring R] [Star R] (n : ℕ) (D l u : ℕ → ℕ → R) (x b : ℕ → R) : Prop :=
  ∃ y, SolvesTriMH n D u y b ∧ SolvesTriMH n D l x fun i => ∑ j ∈ range n, star (D j i) * y j

end Lis
