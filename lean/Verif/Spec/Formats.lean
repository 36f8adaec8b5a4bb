import Verif.Base.C
import Mathlib.Algebra.BigOperators.Intervals
import Mathlib.Algebra.Star.Basic

/-!
# Storage formats and what they mean

For every Lis storage format: the C fields (as in `LIS_MATRIX_STRUCT`, include/lis.h:690-760),
the well-formedness the C code relies on, and the matrix `entry i j` it represents.
These are specifications: the definitions of the formats as in the Lis user guide
("Storage formats"), written without reference to any kernel.

Indices are `Nat`: a negative stored index would be out of range and is excluded by
well-formedness exactly like a too large one.  (DIA offsets are `Int`.)
-/

namespace Lis
open Finset

variable {R : Type}

/-- CSR: `n` rows, `np` columns (`np = n` in the serial library; `np ≥ n` for the local part of a
distributed matrix). `ptr`, `index`, `value` as in the C structure. -/
structure Csr (R : Type) where
  n : ℕ
  np : ℕ
  nnz : ℕ
  ptr : Arr ℕ
  index : Arr ℕ
  value : Arr R

/-- row pointers: `n+1` of them, starting at 0, nondecreasing, ending at `nnz` -/
structure PtrWF (n nnz : ℕ) (ptr : Arr ℕ) : Prop where
  size : n + 1 ≤ ptr.size
  zero : ptr.get 0 = 0
  mono : ∀ i, i < n → ptr.get i ≤ ptr.get (i + 1)
  last : ptr.get n = nnz

structure Csr.WF (A : Csr R) : Prop where
  ptr : PtrWF A.n A.nnz A.ptr
  isz : A.nnz ≤ A.index.size
  vsz : A.nnz ≤ A.value.size
  idx : ∀ k, k < A.nnz → A.index.get k < A.np

/-- entry `(i,j)` of a CSR matrix: the sum of the elements stored for it -/
def Csr.entry [AddCommMonoid R] (A : Csr R) (i j : ℕ) : R :=
  ∑ k ∈ Ico (A.ptr.get i) (A.ptr.get (i + 1)), if A.index.get k = j then A.value.get k else 0

/-- no position is stored twice -/
def Csr.NoDup (A : Csr R) : Prop :=
  ∀ i, i < A.n → ∀ k l, A.ptr.get i ≤ k → k < A.ptr.get (i + 1) → A.ptr.get i ≤ l →
    l < A.ptr.get (i + 1) → A.index.get k = A.index.get l → k = l

/-- Diagonal + strictly lower + strictly upper part, each in CSR (`A->is_splited`).  -/
structure SplitCsr (R : Type) where
  n : ℕ
  np : ℕ
  D : Arr R
  L : Csr R
  U : Csr R

structure SplitCsr.WF (A : SplitCsr R) : Prop where
  dsz : A.n ≤ A.D.size
  le : A.n ≤ A.np
  ln : A.L.n = A.n
  lnp : A.L.np = A.np
  un : A.U.n = A.n
  unp : A.U.np = A.np
  lwf : A.L.WF
  uwf : A.U.WF

def SplitCsr.entry [AddCommMonoid R] (A : SplitCsr R) (i j : ℕ) : R :=
  (if i = j then A.D.get i else 0) + A.L.entry i j + A.U.entry i j

/-- CSC: `np` columns with pointers `ptr`, row numbers in `index`. -/
structure Csc (R : Type) where
  n : ℕ
  np : ℕ
  nnz : ℕ
  ptr : Arr ℕ
  index : Arr ℕ
  value : Arr R

structure Csc.WF (A : Csc R) : Prop where
  ptr : PtrWF A.np A.nnz A.ptr
  isz : A.nnz ≤ A.index.size
  vsz : A.nnz ≤ A.value.size
  idx : ∀ k, k < A.nnz → A.index.get k < A.n

/-- no position of a CSC matrix is stored twice -/
def Csc.NoDup (A : Csc R) : Prop :=
  ∀ j, j < A.np → ∀ k l, A.ptr.get j ≤ k → k < A.ptr.get (j + 1) → A.ptr.get j ≤ l →
    l < A.ptr.get (j + 1) → A.index.get k = A.index.get l → k = l

def Csc.entry [AddCommMonoid R] (A : Csc R) (i j : ℕ) : R :=
  ∑ k ∈ Ico (A.ptr.get j) (A.ptr.get (j + 1)), if A.index.get k = i then A.value.get k else 0

structure SplitCsc (R : Type) where
  n : ℕ
  np : ℕ
  D : Arr R
  L : Csc R
  U : Csc R

structure SplitCsc.WF (A : SplitCsc R) : Prop where
  dsz : A.n ≤ A.D.size
  le : A.n = A.np
  ln : A.L.n = A.n
  lnp : A.L.np = A.np
  un : A.U.n = A.n
  unp : A.U.np = A.np
  lwf : A.L.WF
  uwf : A.U.WF

def SplitCsc.entry [AddCommMonoid R] (A : SplitCsc R) (i j : ℕ) : R :=
  (if i = j then A.D.get i else 0) + A.L.entry i j + A.U.entry i j

/-- COO: element `k` is `value[k]` at `(row[k], col[k])`. -/
structure Coo (R : Type) where
  n : ℕ
  nnz : ℕ
  row : Arr ℕ
  col : Arr ℕ
  value : Arr R

structure Coo.WF (A : Coo R) : Prop where
  rsz : A.nnz ≤ A.row.size
  csz : A.nnz ≤ A.col.size
  vsz : A.nnz ≤ A.value.size
  row : ∀ k, k < A.nnz → A.row.get k < A.n
  col : ∀ k, k < A.nnz → A.col.get k < A.n

def Coo.entry [AddCommMonoid R] (A : Coo R) (i j : ℕ) : R :=
  ∑ k ∈ range A.nnz, if A.row.get k = i ∧ A.col.get k = j then A.value.get k else 0

structure SplitCoo (R : Type) where
  n : ℕ
  D : Arr R
  L : Coo R
  U : Coo R

structure SplitCoo.WF (A : SplitCoo R) : Prop where
  dsz : A.n ≤ A.D.size
  ln : A.L.n = A.n
  un : A.U.n = A.n
  lwf : A.L.WF
  uwf : A.U.WF

def SplitCoo.entry [AddCommMonoid R] (A : SplitCoo R) (i j : ℕ) : R :=
  (if i = j then A.D.get i else 0) + A.L.entry i j + A.U.entry i j

/-- DNS: column-major dense `n × np`. -/
structure Dns (R : Type) where
  n : ℕ
  np : ℕ
  value : Arr R

structure Dns.WF (A : Dns R) : Prop where
  vsz : A.np * A.n ≤ A.value.size

def Dns.entry (A : Dns R) (i j : ℕ) : R := A.value.get (j * A.n + i)

/-- MSR: `value[0..n-1]` is the diagonal, `value[n]` unused, `index[0..n]` the row pointers into
the off-diagonal part (which starts at `n+1`), `index[k]` the column of `value[k]`.
`nnz` is the number of off-diagonal elements. -/
structure Msr (R : Type) where
  n : ℕ
  nnz : ℕ
  index : Arr ℕ
  value : Arr R

structure Msr.WF (A : Msr R) : Prop where
  isz : A.n + 1 + A.nnz ≤ A.index.size
  vsz : A.n + 1 + A.nnz ≤ A.value.size
  zero : A.index.get 0 = A.n + 1
  mono : ∀ i, i < A.n → A.index.get i ≤ A.index.get (i + 1)
  last : A.index.get A.n = A.n + 1 + A.nnz
  idx : ∀ k, A.n + 1 ≤ k → k < A.n + 1 + A.nnz → A.index.get k < A.n

def Msr.entry [AddCommMonoid R] (A : Msr R) (i j : ℕ) : R :=
  (if i = j then A.value.get i else 0) +
  ∑ k ∈ Ico (A.index.get i) (A.index.get (i + 1)),
    if A.index.get k = j then A.value.get k else 0

/-- ELL: `maxnzr` slots per row, slot `j` of row `i` at position `j*n+i`; unused slots hold value 0
with some in-range column index. -/
structure Ell (R : Type) where
  n : ℕ
  maxnzr : ℕ
  index : Arr ℕ
  value : Arr R

structure Ell.WF (A : Ell R) : Prop where
  isz : A.n * A.maxnzr ≤ A.index.size
  vsz : A.n * A.maxnzr ≤ A.value.size
  idx : ∀ j, j < A.maxnzr → ∀ i, i < A.n → A.index.get (j * A.n + i) < A.n

def Ell.entry [AddCommMonoid R] (A : Ell R) (i j : ℕ) : R :=
  ∑ k ∈ range A.maxnzr, if A.index.get (k * A.n + i) = j then A.value.get (k * A.n + i) else 0

/-! ### consequences of well-formedness used everywhere -/

theorem PtrWF.mono' {n nnz : ℕ} {ptr : Arr ℕ} (h : PtrWF n nnz ptr) {i j : ℕ} (hij : i ≤ j)
    (hj : j ≤ n) : ptr.get i ≤ ptr.get j := by
  induction j with
  | zero => simp_all
  | succ j ih =>
    rcases Nat.lt_or_ge i (j + 1) with h' | h'
    · exact (ih (by omega) (by omega)).trans (h.mono j (by omega))
    · rw [show i = j + 1 by omega]

theorem PtrWF.le_nnz {n nnz : ℕ} {ptr : Arr ℕ} (h : PtrWF n nnz ptr) {i : ℕ} (hi : i ≤ n) :
    ptr.get i ≤ nnz := by
  have := h.mono' hi (Nat.le_refl n); rwa [h.last] at this

theorem PtrWF.lt_nnz {n nnz : ℕ} {ptr : Arr ℕ} (h : PtrWF n nnz ptr) {i k : ℕ} (hi : i < n)
    (hk : k < ptr.get (i + 1)) : k < nnz := by
  have := h.le_nnz (i := i + 1) hi; omega

end Lis
