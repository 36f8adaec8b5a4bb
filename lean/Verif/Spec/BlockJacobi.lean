import Verif.Spec.Padded
import Mathlib.LinearAlgebra.Matrix.Determinant.Basic

/-!
# The block diagonal of a BSR matrix, and when it can be inverted without row exchanges
-/

namespace Lis
variable {R : Type}

/-- element `(i,j)` of the block diagonal of `A` -/
def Bsr.diagPart [AddCommMonoid R] (A : Bsr R) (i j : ℕ) : R := if i / A.bnr = j / A.bnr then A.entry i j else 0

/-- block row `I` stores its diagonal block, and once -/
def Bsr.DiagOnce (A : Bsr R) (I : ℕ) : Prop :=
  ∃ b0, A.bptr.get I ≤ b0 ∧ b0 < A.bptr.get (I + 1) ∧ A.bindex.get b0 = I ∧
    ∀ bc, A.bptr.get I ≤ bc → bc < A.bptr.get (I + 1) → A.bindex.get bc = I → bc = b0

/-- block row `I` stores no diagonal block -/
def Bsr.NoDiag (A : Bsr R) (I : ℕ) : Prop :=
  ∀ bc, A.bptr.get I ≤ bc → bc < A.bptr.get (I + 1) → A.bindex.get bc ≠ I

/-- square blocks, the last of which may be cut by the end of the matrix: `nr = ⌈n/b⌉` -/
structure Bsr.Square (A : Bsr R) : Prop where
  blk : A.bnr = A.bnc
  num : A.nc = A.nr
  rows : A.nr = (A.n + A.bnr - 1) / A.bnr

/-- the leading principal minors of every diagonal block (cut at `n`) are nonzero -/
def Bsr.BlockMinors [CommRing R] (A : Bsr R) : Prop :=
  ∀ I, I < A.nr → ∀ k, k ≤ A.bnr → I * A.bnr + k ≤ A.n →
    (Matrix.of fun i j : Fin k => A.entry (I * A.bnr + i) (I * A.bnr + j)).det ≠ 0

end Lis
