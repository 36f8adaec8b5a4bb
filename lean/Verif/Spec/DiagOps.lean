import Verif.Spec.AnyMat
import Verif.Spec.Mul

/-!
# What the diagonal operations have to do, for any storage format
-/

namespace Lis
variable {R : Type}

namespace AnyMat

/-- the storage of `A` has a place for the element `(i,i)` (which may hold 0) -/
def StoresDiag : AnyMat R → ℕ → Prop
  | csr A, i => ∃ k, A.ptr.get i ≤ k ∧ k < A.ptr.get (i + 1) ∧ A.index.get k = i
  | csc A, i => ∃ k, A.ptr.get i ≤ k ∧ k < A.ptr.get (i + 1) ∧ A.index.get k = i
  | msr _ _, _ => True
  | dia A, _ => ∃ e, e < A.nnd ∧ A.index.get e = 0
  | ell A, i => ∃ k, k < A.maxnzr ∧ A.index.get (k * A.n + i) = i
  | jad A, i => ∃ e k, e < A.maxnzr ∧ k < A.ptr.get (e + 1) - A.ptr.get e ∧ A.row.get k = i ∧
      A.index.get (A.ptr.get e + k) = i
  | bsr A, i => ∃ b, A.bptr.get (i / A.bnr) ≤ b ∧ b < A.bptr.get (i / A.bnr + 1) ∧ A.bindex.get b = i / A.bnc
  | bsc A, i => ∃ b, A.bptr.get (i / A.bnc) ≤ b ∧ b < A.bptr.get (i / A.bnc + 1) ∧ A.bindex.get b = i / A.bnr
  | vbr A, i => ∃ r b, r < A.nr ∧ (A.row.get r ≤ i ∧ i < A.row.get (r + 1)) ∧ A.bptr.get r ≤ b ∧
      b < A.bptr.get (r + 1) ∧ A.col.get (A.bindex.get b) ≤ i ∧ i < A.col.get (A.bindex.get b + 1)
  | dns _, _ => True
  | coo A, i => ∃ k, k < A.nnz ∧ A.row.get k = i ∧ A.col.get k = i

/-- the formats whose get_diagonal writes `d_i` for every row -/
def WritesAll : AnyMat R → Prop
  | csr _ | csc _ | msr _ _ | ell _ | dns _ | dia _ => True
  | _ => False

/-- what the diagonal functions need beyond a well-formed matrix: DIA must store the main diagonal; in ELL padding must not
precede the diagonal element; BSR needs square blocks, or blocks sorted by column of which none on the diagonal is
missing; BSC needs square blocks; VBR needs a partition of rows and columns into blocks of
one size.  Nothing for the other formats. -/
def DiagReachable [Zero R] : AnyMat R → Prop
  | dia A => ∃ e, e < A.nnd ∧ A.index.get e = 0
  | ell A => ∀ i, i < A.n → ∀ k l, k < l → l < A.maxnzr → A.index.get (k * A.n + i) = i →
      A.index.get (l * A.n + i) = i → A.value.get (l * A.n + i) = 0
  | bsr A => A.bnr = A.bnc ∨
      ((∀ r, r < A.nr → ∀ k l, A.bptr.get r ≤ k → k < l → l < A.bptr.get (r + 1) → A.bindex.get k < A.bindex.get l) ∧
        ∀ i, i < A.n → StoresDiag (bsr A) i)
  | bsc A => A.bnr = A.bnc ∧ A.nr = A.nc
  | vbr A => A.nr = A.nc ∧ ∃ s, 0 < s ∧ ∀ b, b ≤ A.nr → A.row.get b = b * s ∧ A.col.get b = b * s
  | _ => True

/-- blocks of a VBR matrix are stored one after the other, in the order of the block rows; the pointer array has its
final element.  (No condition for the other formats.) -/
def Packed : AnyMat R → Prop
  | vbr A => A.bnnz + 1 ≤ A.ptr.size ∧ ∀ r, r < A.nr → ∀ b, A.bptr.get r ≤ b → b < A.bptr.get (r + 1) →
      A.ptr.get (b + 1) = A.ptr.get b +
        (A.col.get (A.bindex.get b + 1) - A.col.get (A.bindex.get b)) * (A.row.get (r + 1) - A.row.get r)
  | _ => True

/-- how long the array `d` must be: the padding rows and columns of block formats are scaled too -/
def dSize : AnyMat R → ℕ
  | bsr A => max A.n (max (A.nr * A.bnr) (A.nc * A.bnc))
  | bsc A => max A.n (max (A.nr * A.bnr) (A.nc * A.bnc))
  | A => A.n

/-- MSR stores the diagonal apart and scaling writes 1 there -/
def UnitDiag : AnyMat R → Prop
  | msr _ _ => True
  | _ => False

end AnyMat
end Lis
