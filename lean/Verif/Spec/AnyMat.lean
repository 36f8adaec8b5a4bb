import Verif.Spec.Formats
import Verif.Spec.Formats2
import Verif.Spec.Formats3
import Verif.Spec.Padded

/-!
# A matrix in any storage format

What `LIS_MATRIX` is to the user of `lis_matrix_convert`: a storage format and, whatever the format, the matrix
entries it stands for.
-/

namespace Lis
variable {R : Type}

/-- the storage formats of `lis_matrix_set_type`; `other` is any value that is none of them -/
inductive Fmt
  | csr | csc | msr | dia | ell | jad | bsr | bsc | vbr | dns | coo | other
  deriving DecidableEq

/-- an assembled matrix; MSR also carries the field `A->nnz` (number of stored elements of the matrix) -/
inductive AnyMat (R : Type)
  | csr (A : Csr R) | csc (A : Csc R) | msr (nnz : ℕ) (A : Msr R) | dia (A : Dia R) | ell (A : Ell R) | jad (A : Jad R)
  | bsr (A : Bsr R) | bsc (A : Bsc R) | vbr (A : Vbr R) | dns (A : Dns R) | coo (A : Coo R)

namespace AnyMat

def fmt : AnyMat R → Fmt
  | csr _ => .csr | csc _ => .csc | msr _ _ => .msr | dia _ => .dia | ell _ => .ell | jad _ => .jad
  | bsr _ => .bsr | bsc _ => .bsc | vbr _ => .vbr | dns _ => .dns | coo _ => .coo

def n : AnyMat R → ℕ
  | csr A => A.n | csc A => A.n | msr _ A => A.n | dia A => A.n | ell A => A.n | jad A => A.n
  | bsr A => A.n | bsc A => A.n | vbr A => A.n | dns A => A.n | coo A => A.n

def entry [AddCommMonoid R] : AnyMat R → ℕ → ℕ → R
  | csr A => A.entry | csc A => A.entry | msr _ A => A.entry | dia A => A.entry | ell A => A.entry | jad A => A.entry
  | bsr A => A.entry | bsc A => A.entry | vbr A => A.entry | dns A => A.entry | coo A => A.entry

/-- well-formed square matrix: what `lis_matrix_assemble` expects of user arrays.  For BSR and BSC the padding
positions of the last blocks hold 0; for MSR `A->nnz` is the number of elements, diagonal included -/
def WF [Zero R] : AnyMat R → Prop
  | csr A => A.WF ∧ A.np = A.n
  | csc A => A.WF ∧ A.np = A.n
  | msr nnz A => A.WF ∧ nnz = A.nnz + A.n
  | dia A => A.WF
  | ell A => A.WF
  | jad A => A.WF ∧ A.np = A.n
  | bsr A => A.WF ∧ A.Padded
  | bsc A => A.WF ∧ A.Padded
  | vbr A => A.WF
  | dns A => A.WF ∧ A.np = A.n
  | coo A => A.WF

/-- the source format can be read back completely: an MSR matrix with a 0 on its stored diagonal is not (the result
would announce more elements than it holds) -/
def Exportable [Zero R] : AnyMat R → Prop
  | msr _ A => ∀ i, i < A.n → A.value.get i ≠ 0
  | _ => True

/-- no matrix position is stored twice.  Formats that fill up with zeros (DIA, ELL, BSR, BSC, VBR) may do so: two
different diagonals / blocks / nonzero elements must not stand for the same position -/
def Distinct [Zero R] : AnyMat R → Prop
  | csr A => A.NoDup
  | csc A => A.NoDup
  | msr _ A => ∀ i, i < A.n → ∀ k l, A.index.get i ≤ k → k < A.index.get (i + 1) → A.index.get i ≤ l →
      l < A.index.get (i + 1) → A.index.get k ≠ i ∧ (A.index.get k = A.index.get l → k = l)
  | dia A => ∀ d e, d < A.nnd → e < A.nnd → A.index.get d = A.index.get e → d = e
  | ell A => ∀ i, i < A.n → ∀ k l, k < A.maxnzr → l < A.maxnzr → A.value.get (k * A.n + i) ≠ 0 →
      A.value.get (l * A.n + i) ≠ 0 → A.index.get (k * A.n + i) = A.index.get (l * A.n + i) → k = l
  | jad A => ∀ d e, d < A.maxnzr → e < A.maxnzr → ∀ k, k < A.ptr.get (d + 1) - A.ptr.get d →
      k < A.ptr.get (e + 1) - A.ptr.get e → A.index.get (A.ptr.get d + k) = A.index.get (A.ptr.get e + k) → d = e
  | bsr A => ∀ b, b < A.nr → ∀ k l, A.bptr.get b ≤ k → k < A.bptr.get (b + 1) → A.bptr.get b ≤ l →
      l < A.bptr.get (b + 1) → A.bindex.get k = A.bindex.get l → k = l
  | bsc A => ∀ b, b < A.nc → ∀ k l, A.bptr.get b ≤ k → k < A.bptr.get (b + 1) → A.bptr.get b ≤ l →
      l < A.bptr.get (b + 1) → A.bindex.get k = A.bindex.get l → k = l
  | vbr A => ∀ b, b < A.nr → ∀ k l, A.bptr.get b ≤ k → k < A.bptr.get (b + 1) → A.bptr.get b ≤ l →
      l < A.bptr.get (b + 1) → A.bindex.get k = A.bindex.get l → k = l
  | dns _ => True
  | coo A => ∀ k l, k < A.nnz → l < A.nnz → A.row.get k = A.row.get l → A.col.get k = A.col.get l → k = l

end AnyMat
end Lis
