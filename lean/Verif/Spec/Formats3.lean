import Verif.Spec.Formats

/-! Storage formats, part 3: the block formats BSR, BSC, VBR.  See `Formats.lean`. -/

namespace Lis
open Finset
variable {R : Type}

/-- BSR: `nr × nc` blocks of `bnr × bnc` elements; block row `bi` has the blocks
`bptr[bi] … bptr[bi+1]-1`, block `bc` is in block column `bindex[bc]` and is stored
column-major at `value[bc*bnr*bnc]`.  `n ≤ nr*bnr` (the rest is padding). -/
structure Bsr (R : Type) where
  n : ℕ
  nr : ℕ
  nc : ℕ
  bnr : ℕ
  bnc : ℕ
  bnnz : ℕ
  bptr : Arr ℕ
  bindex : Arr ℕ
  value : Arr R

structure Bsr.WF (A : Bsr R) : Prop where
  bptr : PtrWF A.nr A.bnnz A.bptr
  hbr : 0 < A.bnr
  hbc : 0 < A.bnc
  hn : A.n ≤ A.nr * A.bnr
  isz : A.bnnz ≤ A.bindex.size
  vsz : A.bnnz * (A.bnr * A.bnc) ≤ A.value.size
  idx : ∀ k, k < A.bnnz → A.bindex.get k < A.nc

def Bsr.entry [AddCommMonoid R] (A : Bsr R) (i j : ℕ) : R :=
  ∑ bc ∈ Ico (A.bptr.get (i / A.bnr)) (A.bptr.get (i / A.bnr + 1)),
    if A.bindex.get bc = j / A.bnc then
      A.value.get (bc * (A.bnr * A.bnc) + (j % A.bnc) * A.bnr + i % A.bnr) else 0

/-- split BSR (square blocks): block diagonal `D` + L + U -/
structure SplitBsr (R : Type) where
  n : ℕ
  nr : ℕ
  b : ℕ
  D : Arr R
  L : Bsr R
  U : Bsr R

structure SplitBsr.WF (A : SplitBsr R) : Prop where
  hb : 0 < A.b
  hn : A.n ≤ A.nr * A.b
  dsz : A.nr * (A.b * A.b) ≤ A.D.size
  l : A.L.n = A.n ∧ A.L.nr = A.nr ∧ A.L.nc = A.nr ∧ A.L.bnr = A.b ∧ A.L.bnc = A.b
  u : A.U.n = A.n ∧ A.U.nr = A.nr ∧ A.U.nc = A.nr ∧ A.U.bnr = A.b ∧ A.U.bnc = A.b
  lwf : A.L.WF
  uwf : A.U.WF

/-- element `(i,j)` of a block diagonal stored column-major block by block -/
def blockDiag [Zero R] (b : ℕ) (D : Arr R) (i j : ℕ) : R :=
  if i / b = j / b then D.get ((i / b) * (b * b) + (j % b) * b + i % b) else 0

def SplitBsr.entry [AddCommMonoid R] (A : SplitBsr R) (i j : ℕ) : R :=
  blockDiag A.b A.D i j + A.L.entry i j + A.U.entry i j

/-- BSC: as BSR, but by block column: block column `bj` has the blocks `bptr[bj] … bptr[bj+1]-1`,
block `bc` is in block row `bindex[bc]`; blocks are stored column-major. -/
structure Bsc (R : Type) where
  n : ℕ
  nr : ℕ
  nc : ℕ
  bnr : ℕ
  bnc : ℕ
  bnnz : ℕ
  bptr : Arr ℕ
  bindex : Arr ℕ
  value : Arr R

structure Bsc.WF (A : Bsc R) : Prop where
  bptr : PtrWF A.nc A.bnnz A.bptr
  hbr : 0 < A.bnr
  hbc : 0 < A.bnc
  hn : A.n ≤ A.nr * A.bnr
  isz : A.bnnz ≤ A.bindex.size
  vsz : A.bnnz * (A.bnr * A.bnc) ≤ A.value.size
  idx : ∀ k, k < A.bnnz → A.bindex.get k < A.nr

def Bsc.entry [AddCommMonoid R] (A : Bsc R) (i j : ℕ) : R :=
  ∑ bc ∈ Ico (A.bptr.get (j / A.bnc)) (A.bptr.get (j / A.bnc + 1)),
    if A.bindex.get bc = i / A.bnr then
      A.value.get (bc * (A.bnr * A.bnc) + (j % A.bnc) * A.bnr + i % A.bnr) else 0

structure SplitBsc (R : Type) where
  n : ℕ
  nr : ℕ
  b : ℕ
  D : Arr R
  L : Bsc R
  U : Bsc R

structure SplitBsc.WF (A : SplitBsc R) : Prop where
  hb : 0 < A.b
  hn : A.n ≤ A.nr * A.b
  dsz : A.nr * (A.b * A.b) ≤ A.D.size
  l : A.L.n = A.n ∧ A.L.nr = A.nr ∧ A.L.nc = A.nr ∧ A.L.bnr = A.b ∧ A.L.bnc = A.b
  u : A.U.n = A.n ∧ A.U.nr = A.nr ∧ A.U.nc = A.nr ∧ A.U.bnr = A.b ∧ A.U.bnc = A.b
  lwf : A.L.WF
  uwf : A.U.WF

def SplitBsc.entry [AddCommMonoid R] (A : SplitBsc R) (i j : ℕ) : R :=
  blockDiag A.b A.D i j + A.L.entry i j + A.U.entry i j

/-- VBR: block row `bi` covers rows `row[bi] … row[bi+1]-1`, block column `bj` covers columns
`col[bj] … col[bj+1]-1`; block `bc` (in block column `bindex[bc]`) is stored column-major at
`value[ptr[bc]]`. -/
structure Vbr (R : Type) where
  n : ℕ
  nr : ℕ
  nc : ℕ
  bnnz : ℕ
  row : Arr ℕ
  col : Arr ℕ
  ptr : Arr ℕ
  bptr : Arr ℕ
  bindex : Arr ℕ
  value : Arr R

structure Vbr.WF (A : Vbr R) : Prop where
  row : PtrWF A.nr A.n A.row
  col : PtrWF A.nc A.n A.col
  bptr : PtrWF A.nr A.bnnz A.bptr
  isz : A.bnnz ≤ A.bindex.size
  psz : A.bnnz ≤ A.ptr.size
  idx : ∀ k, k < A.bnnz → A.bindex.get k < A.nc
  vsz : ∀ bi, bi < A.nr → ∀ bc, A.bptr.get bi ≤ bc → bc < A.bptr.get (bi + 1) →
    A.ptr.get bc + (A.col.get (A.bindex.get bc + 1) - A.col.get (A.bindex.get bc)) *
      (A.row.get (bi + 1) - A.row.get bi) ≤ A.value.size

/-- the part of entry `(i,j)` stored in block `bc` of block row `bi` -/
def Vbr.blockEntry [Zero R] (A : Vbr R) (bi bc i j : ℕ) : R :=
  if (A.row.get bi ≤ i ∧ i < A.row.get (bi + 1)) ∧
      (A.col.get (A.bindex.get bc) ≤ j ∧ j < A.col.get (A.bindex.get bc + 1)) then
    A.value.get (A.ptr.get bc + (j - A.col.get (A.bindex.get bc)) *
      (A.row.get (bi + 1) - A.row.get bi) + (i - A.row.get bi)) else 0

def Vbr.entry [AddCommMonoid R] (A : Vbr R) (i j : ℕ) : R :=
  ∑ bi ∈ range A.nr, ∑ bc ∈ Ico (A.bptr.get bi) (A.bptr.get (bi + 1)), A.blockEntry bi bc i j

end Lis

namespace Lis
open Finset
variable {R : Type}
/-- split VBR: `D[bi]` is the diagonal block of block row `bi` (`v_value[bi]`), stored column-major
by `lis_matrix_split_vbr`; L and U share the partition `row = col`. -/
structure SplitVbr (R : Type) where
  n : ℕ
  nr : ℕ
  D : Arr (Arr R)
  L : Vbr R
  U : Vbr R

/-- entry of the diagonal block (column-major) of a split VBR matrix -/
def SplitVbr.diagEntry [AddCommMonoid R] (A : SplitVbr R) (i j : ℕ) : R :=
  ∑ bi ∈ range A.nr,
    if (A.L.row.get bi ≤ i ∧ i < A.L.row.get (bi + 1)) ∧
        (A.L.row.get bi ≤ j ∧ j < A.L.row.get (bi + 1)) then
      (A.D.get bi).get ((j - A.L.row.get bi) * (A.L.row.get (bi + 1) - A.L.row.get bi) +
        (i - A.L.row.get bi)) else 0

def SplitVbr.entry [AddCommMonoid R] (A : SplitVbr R) (i j : ℕ) : R :=
  A.diagEntry i j + A.L.entry i j + A.U.entry i j

structure SplitVbr.WF (A : SplitVbr R) : Prop where
  l : A.L.n = A.n ∧ A.L.nr = A.nr
  u : A.U.n = A.n ∧ A.U.nr = A.nr ∧ A.U.row = A.L.row
  dsz : A.nr ≤ A.D.size
  dsz' : ∀ bi, bi < A.nr → (A.L.row.get (bi + 1) - A.L.row.get bi) *
    (A.L.row.get (bi + 1) - A.L.row.get bi) ≤ (A.D.get bi).size
  lwf : A.L.WF
  uwf : A.U.WF
end Lis
