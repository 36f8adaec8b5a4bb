import Verif.Props.Ilu
import Mathlib.Algebra.Order.Group.Unbundled.Abs

/-!
# What ILUT computes

Row `i` of the elimination produces complete rows `l` (multipliers) and `u`; of each, at most `lfil` elements are stored.
-/

namespace Lis
open Finset
variable {R : Type}

/-- row `i` of `M` holds at most `lfil` elements of the row `x`, at distinct columns; if a nonzero element of `x` is missing,
`lfil` elements are stored and none of them exceeds the missing one in magnitude: **the smallest are kept** -/
structure KeepsSmallest [Field R] [LinearOrder R] (lfil : ℕ) (x : ℕ → R) (M : IluMat R) (i : ℕ) : Prop where
  le : M.nnz.get i ≤ lfil
  inj : ∀ t u, t < M.nnz.get i → u < M.nnz.get i → (M.index i).get t = (M.index i).get u → t = u
  val : ∀ t, t < M.nnz.get i → (M.value i).get t = x ((M.index i).get t)
  small : ∀ c, ¬ M.Has i c → x c ≠ 0 → M.nnz.get i = lfil ∧ ∀ t, t < M.nnz.get i → |(M.value i).get t| ≤ |x c|

/-- the mean of the magnitudes of the stored elements of row `i` -/
def rowMean [Field R] [LinearOrder R] (A : Csr R) (i : ℕ) : R :=
  (∑ k ∈ Ico (A.ptr.get i) (A.ptr.get (i + 1)), |A.value.get k|) / ((A.ptr.get (i + 1) - A.ptr.get i : ℕ) : R)

/-- row `i` of the ILUT factorization: `A(i,·) = l·(D̂+U) + d(i) + u + e`, where `l`, `u` are the complete rows, `U` the *stored* previous
rows and `e` what the threshold `tol` dropped; `e` is small and occurs only where `A` has no element -/
structure IlutRow [Field R] [LinearOrder R] (A : Csr R) (tol : R) (lfil : ℕ) (F : IluFact R) (i : ℕ) (l u e : ℕ → R) : Prop where
  low : ∀ c, l c ≠ 0 → c < i
  up : ∀ c, u c ≠ 0 → i < c ∧ c < A.n
  elim : (∀ k, k < i → F.D.get k ≠ 0) → ∀ c, c < A.n → A.entry i c =
    (∑ k ∈ range i, l k * ((if k = c then (F.D.get k)⁻¹ else 0) + F.U.entry k c)) + (if c = i then (F.D.get i)⁻¹ else 0) + u c + e c
  err : ∀ c, |e c| ≤ i * (tol * rowMean A i)
  fill : ∀ c, e c ≠ 0 → c ≠ i ∧ ¬ A.Stored i c
  keepL : KeepsSmallest lfil l F.L i
  keepU : KeepsSmallest lfil u F.U i

end Lis
