import Mathlib.Algebra.BigOperators.Intervals
import Mathlib.Algebra.Field.Defs
import Mathlib.Algebra.Star.Basic

/-!
# What an incomplete LU factorization with level of fill is

Written without reference to the code: the level-of-fill rule of ILU(p) and the property of the factors
(Saad, "Iterative methods for sparse linear systems", 10.3).
-/

namespace Lis
open Finset
variable {R : Type}

/-- `FillLevel S i j l`: position `(i,j)` is reached with level of fill `l`, when `S` is the pattern of the matrix.  Stored
positions have level 0; eliminating column `k < min(i,j)` combines `(i,k)` and `(k,j)`. -/
inductive FillLevel (S : ℕ → ℕ → Prop) : ℕ → ℕ → ℕ → Prop
  | stored {i j : ℕ} : S i j → FillLevel S i j 0
  | fill {i j k a b : ℕ} : k < i → k < j → FillLevel S i k a → FillLevel S k j b → FillLevel S i j (a + b + 1)

/-- the pattern of ILU(p): positions reached with level of fill at most `p` -/
def IluPattern (S : ℕ → ℕ → Prop) (p : ℕ) (i j : ℕ) : Prop := ∃ l, l ≤ p ∧ FillLevel S i j l

/-- entry `(i,j)` of `(I + L)(diag(d) + U)`, for `n×n` matrices -/
def luEntry [CommRing R] (n : ℕ) (L : ℕ → ℕ → R) (d : ℕ → R) (U : ℕ → ℕ → R) (i j : ℕ) : R :=
  ∑ k ∈ range n, ((if i = k then 1 else 0) + L i k) * ((if k = j then d k else 0) + U k j)

/-- `L` is strictly lower triangular, `U` strictly upper triangular, and both vanish off the pattern `P` -/
structure LuShape [Zero R] (n : ℕ) (P : ℕ → ℕ → Prop) (L U : ℕ → ℕ → R) : Prop where
  low : ∀ i j, i < n → L i j ≠ 0 → j < i ∧ P i j
  up : ∀ i j, i < n → U i j ≠ 0 → i < j ∧ j < n ∧ P i j

/-- `(I+L)(diag(d)+U)` agrees with `A` on the pattern `P` and on the diagonal -/
def IsIlu [CommRing R] (n : ℕ) (P : ℕ → ℕ → Prop) (A L : ℕ → ℕ → R) (d : ℕ → R) (U : ℕ → ℕ → R) : Prop :=
  ∀ i j, i < n → j < n → P i j ∨ i = j → luEntry n L d U i j = A i j

/-- `M z = r` for an `n×n` matrix -/
def SolvesEq [CommRing R] (n : ℕ) (M : ℕ → ℕ → R) (z r : ℕ → R) : Prop :=
  ∀ i, i < n → ∑ j ∈ range n, M i j * z j = r i

/-- `Mᴴ z = r` -/
def SolvesEqH [CommRing R] [StarRing R] (n : ℕ) (M : ℕ → ℕ → R) (z r : ℕ → R) : Prop :=
  ∀ i, i < n → ∑ j ∈ range n, star (M j i) * z j = r i

end Lis
