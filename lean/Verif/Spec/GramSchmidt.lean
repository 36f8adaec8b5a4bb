import Verif.Base.C
import Mathlib.Data.Real.Basic
import Mathlib.Algebra.BigOperators.Ring.Finset
import Mathlib.LinearAlgebra.Matrix.DotProduct

/-!
# QR factorization
-/

namespace Lis
open Finset

/-- element (i,j) of a matrix stored by columns -/
def Arr.cm {R : Type} (a : Arr R) (n i j : ℕ) : R := a.get (i + j * n)

/-- the first `m` columns of `q` are orthonormal, the others zero; `r` is upper triangular with positive diagonal in these
columns; the first `m` columns of `q r` are those of `a`; columns of `r` after column `m` are zero -/
structure QrCols (n m : ℕ) (a q r : ℕ → ℕ → ℝ) : Prop where
  orth : ∀ j l, j < m → l < m → ∑ i ∈ range n, q i j * q i l = if j = l then 1 else 0
  zq : ∀ i j, i < n → j < n → m ≤ j → q i j = 0
  up : ∀ i j, i < n → j < n → j < i → r i j = 0
  diag : ∀ j, j < m → 0 < r j j
  prod : ∀ i j, i < n → j < m → ∑ l ∈ range n, q i l * r l j = a i j
  zr : ∀ i j, i < n → j < n → m < j → r i j = 0

/-- column `m` of `a` is, up to a vector of norm `r m m`, a combination of the first `m` columns of `q` -/
structure QrStop (n m : ℕ) (a q r : ℕ → ℕ → ℝ) : Prop where
  dep : ∃ w : ℕ → ℝ, (∀ i, i < n → a i m = ∑ l ∈ range m, q i l * r l m + w i) ∧
    (∀ l, l < m → ∑ i ∈ range n, q i l * w i = 0) ∧ ∑ i ∈ range n, w i * w i = r m m * r m m
  nonneg : 0 ≤ r m m

/-- the result of modified Gram-Schmidt on `a0`: the columns of `q` are orthogonal, of length 1 where the diagonal of `r` is
at least `tol` and zero elsewhere; `a` holds what is left of each column after the earlier ones are projected out -/
structure MgsOut (n : ℕ) (tol : ℝ) (a0 a q r : ℕ → ℕ → ℝ) : Prop where
  orth : ∀ j l, j < n → l < n → j ≠ l → ∑ i ∈ range n, q i j * q i l = 0
  unit : ∀ j, j < n → tol ≤ r j j → ∑ i ∈ range n, q i j * q i j = 1
  drop : ∀ i j, i < n → j < n → r j j < tol → q i j = 0
  up : ∀ i j, i < n → j < n → j < i → r i j = 0
  diag : ∀ j, j < n → 0 ≤ r j j
  left : ∀ i j, i < n → j < n → a i j = a0 i j - ∑ l ∈ range j, q i l * r l j
  norm : ∀ j, j < n → ∑ i ∈ range n, a i j * a i j = r j j * r j j
  kept : ∀ i j, i < n → j < n → tol ≤ r j j → a i j = q i j * r j j

/-- every vector is enlarged at least by the factor `t`: the smallest singular value is at least `t` -/
def LowerBound (n : ℕ) (t : ℝ) (a : ℕ → ℕ → ℝ) : Prop :=
  ∀ x : ℕ → ℝ, t ^ 2 * ∑ j ∈ range n, x j ^ 2 ≤ ∑ i ∈ range n, (∑ j ∈ range n, a i j * x j) ^ 2

/-- the matrix of an array stored by columns -/
def sqMat (n : ℕ) (a : ℕ → ℕ → ℝ) : Matrix (Fin n) (Fin n) ℝ := Matrix.of fun i j => a i j

/-- `B` is `A` in another orthonormal basis -/
def OrthSimilar {n : ℕ} (A B : Matrix (Fin n) (Fin n) ℝ) : Prop := ∃ P : Matrix (Fin n) (Fin n) ℝ, P.transpose * P = 1 ∧ B = P.transpose * A * P

end Lis
