import Verif.Spec.EsolverExact
import Mathlib.Algebra.BigOperators.Group.Finset.Basic

/-!
# Lanczos: what the tridiagonal matrix is
-/

namespace Lis
open Matrix Finset
variable {n : ℕ}

/-- After `m` Lanczos steps for the symmetric matrix `A`: orthonormal vectors `V 0, …, V (m-1)` starting with the constant
vector, the matrix `T` of order `m` is that of `A` in this basis, `A V = V T` up to the residual `r` in the last column, and
`r` is orthogonal to the basis. -/
structure LanczosBasis (A : Matrix (Fin n) (Fin n) ℝ) (m : ℕ) (T : ℕ → ℕ → ℝ) (V : ℕ → Fin n → ℝ) (r : Fin n → ℝ) : Prop where
  start : 0 < m → V 0 = fun _ => 1 / √(n : ℝ)
  orth : ∀ i k, i < m → k < m → V i ⬝ᵥ V k = if i = k then 1 else 0
  proj : ∀ i k, i < m → k < m → T i k = V i ⬝ᵥ A *ᵥ V k
  tri : ∀ i k, i < m → k < m → i + 1 < k ∨ k + 1 < i → T i k = 0
  cols : ∀ k, k < m → A *ᵥ V k = ∑ l ∈ range m, T l k • V l + if k + 1 = m then r else 0
  perp : ∀ k, k < m → V k ⬝ᵥ r = 0

end Lis
