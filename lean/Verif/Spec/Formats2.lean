import Verif.Spec.Formats

/-! Storage formats, part 2: ELL (split), DIA, JAD.  See `Formats.lean`. -/

namespace Lis
open Finset
variable {R : Type}

/-- Diagonal + two ELL parts (`A->is_splited`) -/
structure SplitEll (R : Type) where
  n : ℕ
  D : Arr R
  L : Ell R
  U : Ell R

structure SplitEll.WF (A : SplitEll R) : Prop where
  dsz : A.n ≤ A.D.size
  ln : A.L.n = A.n
  un : A.U.n = A.n
  lwf : A.L.WF
  uwf : A.U.WF

def SplitEll.entry [AddCommMonoid R] (A : SplitEll R) (i j : ℕ) : R :=
  (if i = j then A.D.get i else 0) + A.L.entry i j + A.U.entry i j

/-- DIA: `nnd` stored diagonals; diagonal `d` has offset `index[d]` (column − row) and its element
in row `i` is `value[d*n+i]`. -/
structure Dia (R : Type) where
  n : ℕ
  nnd : ℕ
  index : Arr ℤ
  value : Arr R

structure Dia.WF (A : Dia R) : Prop where
  isz : A.nnd ≤ A.index.size
  vsz : A.nnd * A.n ≤ A.value.size

def Dia.entry [AddCommMonoid R] (A : Dia R) (i j : ℕ) : R :=
  ∑ d ∈ range A.nnd, if A.index.get d = (j : ℤ) - i then A.value.get (d * A.n + i) else 0

structure SplitDia (R : Type) where
  n : ℕ
  D : Arr R
  L : Dia R
  U : Dia R

structure SplitDia.WF (A : SplitDia R) : Prop where
  dsz : A.n ≤ A.D.size
  ln : A.L.n = A.n
  un : A.U.n = A.n
  lwf : A.L.WF
  uwf : A.U.WF

def SplitDia.entry [AddCommMonoid R] (A : SplitDia R) (i j : ℕ) : R :=
  (if i = j then A.D.get i else 0) + A.L.entry i j + A.U.entry i j

/-- JAD: rows are permuted by `row` (position `k` holds row `row[k]`); jagged diagonal `d` occupies
`ptr[d] … ptr[d+1]-1`, its `k`-th element belongs to position `k`. `np` columns. -/
structure Jad (R : Type) where
  n : ℕ
  np : ℕ
  nnz : ℕ
  maxnzr : ℕ
  row : Arr ℕ
  ptr : Arr ℕ
  index : Arr ℕ
  value : Arr R

structure Jad.WF (A : Jad R) : Prop where
  ptr : PtrWF A.maxnzr A.nnz A.ptr
  len : ∀ d, d < A.maxnzr → A.ptr.get (d + 1) - A.ptr.get d ≤ A.n
  rsz : A.n ≤ A.row.size
  row : ∀ k, k < A.n → A.row.get k < A.n
  inj : ∀ k l, k < A.n → l < A.n → A.row.get k = A.row.get l → k = l
  isz : A.nnz ≤ A.index.size
  vsz : A.nnz ≤ A.value.size
  idx : ∀ k, k < A.nnz → A.index.get k < A.np

def Jad.entry [AddCommMonoid R] (A : Jad R) (i j : ℕ) : R :=
  ∑ d ∈ range A.maxnzr, ∑ k ∈ range (A.ptr.get (d + 1) - A.ptr.get d),
    if A.row.get k = i ∧ A.index.get (A.ptr.get d + k) = j then A.value.get (A.ptr.get d + k) else 0

structure SplitJad (R : Type) where
  n : ℕ
  np : ℕ
  D : Arr R
  L : Jad R
  U : Jad R

structure SplitJad.WF (A : SplitJad R) : Prop where
  dsz : A.n ≤ A.D.size
  le : A.n ≤ A.np
  ln : A.L.n = A.n
  un : A.U.n = A.n
  lnp : A.L.np = A.np
  unp : A.U.np = A.np
  lwf : A.L.WF
  uwf : A.U.WF

def SplitJad.entry [AddCommMonoid R] (A : SplitJad R) (i j : ℕ) : R :=
  (if i = j then A.D.get i else 0) + A.L.entry i j + A.U.entry i j

end Lis
