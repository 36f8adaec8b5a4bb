import Verif.Spec.Formats3
import Verif.Spec.BlockJacobi
import Verif.Spec.Padded

/-!
# Moving blocks without transposing them
-/

namespace Lis
variable {R : Type}

/-- the matrix whose block `(I,J)` is block `(J,I)` of `M`, the block itself not transposed; the transposed matrix for
`b = 1` -/
def blockTr (b : ℕ) (M : ℕ → ℕ → R) (i j : ℕ) : R := M (j / b * b + i % b) (i / b * b + j % b)

/-- the blocks of `M` below the block diagonal -/
def blockLow [Zero R] (b : ℕ) (M : ℕ → ℕ → R) (i j : ℕ) : R := if j / b < i / b then M i j else 0

/-- the blocks of `M` above the block diagonal -/
def blockUp [Zero R] (b : ℕ) (M : ℕ → ℕ → R) (i j : ℕ) : R := if i / b < j / b then M i j else 0

/-- the block diagonal of `M` -/
def blockMid [Zero R] (b : ℕ) (M : ℕ → ℕ → R) (i j : ℕ) : R := if i / b = j / b then M i j else 0

theorem blockTr_one (M : ℕ → ℕ → R) (i j : ℕ) : blockTr 1 M i j = M j i := by
  simp [blockTr, Nat.mod_one]

/-- block column `J` stores its diagonal block, and once -/
def Bsc.DiagOnce (A : Bsc R) (J : ℕ) : Prop :=
  ∃ b0, A.bptr.get J ≤ b0 ∧ b0 < A.bptr.get (J + 1) ∧ A.bindex.get b0 = J ∧
    ∀ bc, A.bptr.get J ≤ bc → bc < A.bptr.get (J + 1) → A.bindex.get bc = J → bc = b0

/-- square blocks and a square matrix, with as many block columns as `lis_matrix_set_bsc` gives it -/
structure Bsc.Square (A : Bsc R) : Prop where
  blk : A.bnr = A.bnc
  num : A.nr = A.nc
  cols : A.nc = (A.n + A.bnr - 1) / A.bnr

/-- the leading principal minors of every diagonal block (cut at `n`) are nonzero -/
def Bsc.BlockMinors [CommRing R] (A : Bsc R) : Prop :=
  ∀ I, I < A.nc → ∀ k, k ≤ A.bnr → I * A.bnr + k ≤ A.n →
    (Matrix.of fun i j : Fin k => A.entry (I * A.bnr + i) (I * A.bnr + j)).det ≠ 0

/-- what `lis_matrix_split` makes of a BSC matrix: `L` holds the blocks above the block diagonal (row smaller than
column), `U` those below -/
structure SplitBsc.Swapped (A : SplitBsc R) [AddCommMonoid R] : Prop where
  low : ∀ i j, j < A.nr * A.b → j / A.b ≤ i / A.b → A.L.entry i j = 0
  up : ∀ i j, j < A.nr * A.b → i / A.b ≤ j / A.b → A.U.entry i j = 0

end Lis
