import Verif.Spec.Formats3

/-!
Block formats cover the matrix with whole blocks, so the last block row and the last block column may reach
beyond row `n` and column `n`.  `Padded` says that the positions outside the matrix hold 0 and that no block row
(column) starts after row (column) `n`.
-/

namespace Lis
variable {R : Type}

structure Bsr.Padded [Zero R] (A : Bsr R) : Prop where
  fit : (A.nr - 1) * A.bnr ≤ A.n
  zero : ∀ br, br < A.nr → ∀ bc, A.bptr.get br ≤ bc → bc < A.bptr.get (br + 1) → ∀ i j, i < A.bnr → j < A.bnc →
    (A.n ≤ br * A.bnr + i ∨ A.n ≤ A.bindex.get bc * A.bnc + j) →
    A.value.get (bc * (A.bnr * A.bnc) + j * A.bnr + i) = 0

structure Bsc.Padded [Zero R] (A : Bsc R) : Prop where
  cover : A.n ≤ A.nc * A.bnc
  fit : (A.nc - 1) * A.bnc ≤ A.n
  zero : ∀ bj, bj < A.nc → ∀ bc, A.bptr.get bj ≤ bc → bc < A.bptr.get (bj + 1) → ∀ i j, i < A.bnr → j < A.bnc →
    (A.n ≤ A.bindex.get bc * A.bnr + i ∨ A.n ≤ bj * A.bnc + j) →
    A.value.get (bc * (A.bnr * A.bnc) + j * A.bnr + i) = 0

end Lis
