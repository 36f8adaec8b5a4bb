import Verif.Model.CsrOps
import Verif.Spec.AnyMat

/-!
# Diagonal, shift and scaling for every storage format

`lis_matrix_get_diagonal`, `lis_matrix_shift_diagonal`, `lis_matrix_scale` (src/matrix/lis_matrix_ops.c) and the
functions of the formats they call (CSR is in `CsrOps`).  Serial code paths, matrices that are not split; `d` is the C
array argument.
-/

namespace Lis
variable {R : Type}

/-- `value[k] *= w` -/
def mulCell [Mul R] (value : Arr R) (k : ℕ) (w : R) : Option (Arr R) := do
  let v ← value.rd k
  value.wr k (v * w)

/-- `value[k] -= sigma` -/
def subAt [Sub R] (value : Arr R) (k : ℕ) (sigma : R) : Option (Arr R) := do
  let v ← value.rd k
  value.wr k (v - sigma)

/-! ### CSC -/

/-- `lis_matrix_get_diagonal_csc`, unsplit. src/matrix/lis_matrix_csc.c:256-296 -/
def getDiagonalCsc [Zero R] (A : Csc R) (d : Arr R) : Option (Arr R) :=
  loop 0 A.np d fun i d => do
    let d ← d.wr i 0
    let a ← A.ptr.rd i
    let b ← A.ptr.rd (i + 1)
    loopB a b d fun j d => do
      let c ← A.index.rd j
      if i = c then do
        let v ← A.value.rd j
        let d ← d.wr i v
        pure (true, d)
      else pure (false, d)

/-- `lis_matrix_shift_diagonal_csc`, unsplit. src/matrix/lis_matrix_csc.c:299-338 -/
def shiftDiagonalCsc [Sub R] (A : Csc R) (sigma : R) : Option (Csc R) := do
  let value ← loop 0 A.np A.value fun i value => do
    let a ← A.ptr.rd i
    let b ← A.ptr.rd (i + 1)
    loopB a b value fun j value => do
      let c ← A.index.rd j
      if i = c then do
        let v ← value.rd j
        let value ← value.wr j (v - sigma)
        pure (true, value)
      else pure (false, value)
  pure { A with value := value }

/-- `lis_matrix_scale_csc`, unsplit. src/matrix/lis_matrix_csc.c:342-383 -/
def scaleCsc [Mul R] (A : Csc R) (d : Arr R) : Option (Csc R) := do
  let value ← loop 0 A.np A.value fun i value => do
    let a ← A.ptr.rd i
    let b ← A.ptr.rd (i + 1)
    loop a b value fun j value => do
      let c ← A.index.rd j
      let w ← d.rd c
      mulCell value j w
  pure { A with value := value }

/-- `lis_matrix_scale_symm_csc`, unsplit. src/matrix/lis_matrix_csc.c:386-427 -/
def scaleSymmCsc [Mul R] (A : Csc R) (d : Arr R) : Option (Csc R) := do
  let value ← loop 0 A.np A.value fun i value => do
    let a ← A.ptr.rd i
    let b ← A.ptr.rd (i + 1)
    loop a b value fun j value => do
      let v ← value.rd j
      let di ← d.rd i
      let c ← A.index.rd j
      let dc ← d.rd c
      value.wr j (v * di * dc)
  pure { A with value := value }

/-! ### COO -/

/-- `lis_matrix_get_diagonal_coo`, unsplit: `d` is not cleared first. src/matrix/lis_matrix_coo.c:322-354 -/
def getDiagonalCoo (A : Coo R) (d : Arr R) : Option (Arr R) :=
  loop 0 A.nnz d fun i d => do
    let r ← A.row.rd i
    let c ← A.col.rd i
    if r = c then do
      let v ← A.value.rd i
      d.wr r v
    else pure d

/-- `lis_matrix_shift_diagonal_coo`, unsplit. src/matrix/lis_matrix_coo.c:357-388 -/
def shiftDiagonalCoo [Sub R] (A : Coo R) (sigma : R) : Option (Coo R) := do
  let value ← loop 0 A.nnz A.value fun i value => do
    let r ← A.row.rd i
    let c ← A.col.rd i
    if r = c then subAt value i sigma else pure value
  pure { A with value := value }

/-- `lis_matrix_scale_coo`, unsplit. src/matrix/lis_matrix_coo.c:391-426 -/
def scaleCoo [Mul R] (A : Coo R) (d : Arr R) : Option (Coo R) := do
  let value ← loop 0 A.nnz A.value fun j value => do
    let i ← A.row.rd j
    let w ← d.rd i
    mulCell value j w
  pure { A with value := value }

/-- `lis_matrix_scale_symm_coo`, unsplit: `i = row[k]; j = row[k];` — the column is never read.
src/matrix/lis_matrix_coo.c:429-466 -/
def scaleSymmCoo [Mul R] (A : Coo R) (d : Arr R) : Option (Coo R) := do
  let value ← loop 0 A.nnz A.value fun k value => do
    let i ← A.row.rd k
    let j ← A.row.rd k
    let wi ← d.rd i
    let wj ← d.rd j
    mulCell value k (wi * wj)
  pure { A with value := value }

/-! ### MSR -/

/-- `lis_matrix_get_diagonal_msr`, unsplit. src/matrix/lis_matrix_msr.c:327-357 -/
def getDiagonalMsr (A : Msr R) (d : Arr R) : Option (Arr R) :=
  loop 0 A.n d fun i d => do
    let v ← A.value.rd i
    d.wr i v

/-- `lis_matrix_shift_diagonal_msr`, unsplit. src/matrix/lis_matrix_msr.c:361-391 -/
def shiftDiagonalMsr [Sub R] (A : Msr R) (sigma : R) : Option (Msr R) := do
  let value ← loop 0 A.n A.value fun i value => subAt value i sigma
  pure { A with value := value }

/-- `lis_matrix_scale_msr`, unsplit: the diagonal is set to 1. src/matrix/lis_matrix_msr.c:395-437 -/
def scaleMsr [Mul R] [One R] (A : Msr R) (d : Arr R) : Option (Msr R) := do
  let value ← loop 0 A.n A.value fun i value => do
    let value ← value.wr i 1
    let a ← A.index.rd i
    let b ← A.index.rd (i + 1)
    loop a b value fun j value => do
      let w ← d.rd i
      mulCell value j w
  pure { A with value := value }

/-- `lis_matrix_scale_symm_msr`, unsplit: the diagonal is set to 1. src/matrix/lis_matrix_msr.c:441-483 -/
def scaleSymmMsr [Mul R] [One R] (A : Msr R) (d : Arr R) : Option (Msr R) := do
  let value ← loop 0 A.n A.value fun i value => do
    let value ← value.wr i 1
    let a ← A.index.rd i
    let b ← A.index.rd (i + 1)
    loop a b value fun j value => do
      let v ← value.rd j
      let di ← d.rd i
      let c ← A.index.rd j
      let dc ← d.rd c
      value.wr j (v * di * dc)
  pure { A with value := value }

/-! ### DIA -/

/-- `for(j=0;j<nnd;j++) { if( A->index[j]==0 ) break; }`; the result is `nnd` when there is no main diagonal.
src/matrix/lis_matrix_dia.c:352-355, :418-421 -/
def findDiag0 (A : Dia R) : Option ℕ :=
  loopB 0 A.nnd 0 fun j _ => do
    let o ← A.index.rd j
    if o = 0 then pure (true, j) else pure (false, j + 1)

/-- `lis_matrix_get_diagonal_dia`, unsplit, serial. src/matrix/lis_matrix_dia.c:318-367 -/
def getDiagonalDia (A : Dia R) (d : Arr R) : Option (Arr R) := do
  let j ← findDiag0 A
  loop 0 A.n d fun i d => do
    let v ← A.value.rd (j * A.n + i)
    d.wr i v

/-- `lis_matrix_shift_diagonal_dia`, unsplit, serial. src/matrix/lis_matrix_dia.c:371-433 -/
def shiftDiagonalDia [Sub R] (A : Dia R) (sigma : R) : Option (Dia R) := do
  let j ← findDiag0 A
  let value ← loop 0 A.n A.value fun i value => subAt value (j * A.n + i) sigma
  pure { A with value := value }

/-- `lis_matrix_scale_dia`, unsplit, serial, no MPI. src/matrix/lis_matrix_dia.c:437-570 -/
def scaleDia [Mul R] (A : Dia R) (d : Arr R) : Option (Dia R) := do
  let value ← loop 0 A.nnd A.value fun j value => do
    let jj ← A.index.rd j
    let js := (max 0 (-jj)).toNat
    let je := (min (A.n : ℤ) (A.n - jj)).toNat
    loop js je value fun i value => do
      let w ← d.rd i
      mulCell value (j * A.n + i) w
  pure { A with value := value }

/-- `lis_matrix_scale_symm_dia`, unsplit, serial, no MPI. src/matrix/lis_matrix_dia.c:574-712 -/
def scaleSymmDia [Mul R] (A : Dia R) (d : Arr R) : Option (Dia R) := do
  let value ← loop 0 A.nnd A.value fun j value => do
    let jj ← A.index.rd j
    let js := (max 0 (-jj)).toNat
    let je := (min (A.n : ℤ) (A.n - jj)).toNat
    loop js je value fun i value => do
      let wi ← d.rd i
      let o ← A.index.rd j
      let wj ← d.rdI (i + o)
      mulCell value (j * A.n + i) (wi * wj)
  pure { A with value := value }

/-! ### ELL -/

/-- `lis_matrix_get_diagonal_ell`, unsplit. src/matrix/lis_matrix_ell.c:591-630 -/
def getDiagonalEll [Zero R] (A : Ell R) (d : Arr R) : Option (Arr R) :=
  loop 0 A.n d fun i d => do
    let d ← d.wr i 0
    loopB 0 A.maxnzr d fun j d => do
      let c ← A.index.rd (j * A.n + i)
      if i = c then do
        let v ← A.value.rd (j * A.n + i)
        let d ← d.wr i v
        pure (true, d)
      else pure (false, d)

/-- `lis_matrix_shift_diagonal_ell`, unsplit. src/matrix/lis_matrix_ell.c:634-673 -/
def shiftDiagonalEll [Sub R] (A : Ell R) (sigma : R) : Option (Ell R) := do
  let value ← loop 0 A.n A.value fun i value =>
    loopB 0 A.maxnzr value fun j value => do
      let c ← A.index.rd (j * A.n + i)
      if i = c then do
        let value ← subAt value (j * A.n + i) sigma
        pure (true, value)
      else pure (false, value)
  pure { A with value := value }

/-- `lis_matrix_scale_ell`, unsplit, one thread. src/matrix/lis_matrix_ell.c:677-750 -/
def scaleEll [Mul R] (A : Ell R) (d : Arr R) : Option (Ell R) := do
  let value ← loop 0 A.maxnzr A.value fun j value =>
    loop 0 A.n value fun i value => do
      let w ← d.rd i
      mulCell value (j * A.n + i) w
  pure { A with value := value }

/-- `lis_matrix_scale_symm_ell`, unsplit, one thread. src/matrix/lis_matrix_ell.c:754-827 -/
def scaleSymmEll [Mul R] (A : Ell R) (d : Arr R) : Option (Ell R) := do
  let value ← loop 0 A.maxnzr A.value fun j value =>
    loop 0 A.n value fun i value => do
      let wi ← d.rd i
      let c ← A.index.rd (j * A.n + i)
      let wc ← d.rd c
      mulCell value (j * A.n + i) (wi * wc)
  pure { A with value := value }

/-! ### JAD -/

/-- the scan of `lis_matrix_get_diagonal_jad` and `lis_matrix_shift_diagonal_jad`: run `f` on every element that lies on
the diagonal (`f row position state`), counting `k` down from `n`, and return when `k` reaches 0.  The state carries
`l`, the position within the jagged diagonal.  The `return` from inside both loops is the flag `true` of both.
src/matrix/lis_matrix_jad.c:469-485, :545-561 -/
def jadDiagScan {σ : Type} (A : Jad R) (s : σ) (f : ℕ → ℕ → σ → Option σ) : Option σ := do
  let r ← loopB 0 A.maxnzr (A.n, s) fun j (s : ℕ × σ) => do
    let a ← A.ptr.rd j
    let b ← A.ptr.rd (j + 1)
    let r ← loopB a b (false, 0, s) fun i (s : Bool × ℕ × ℕ × σ) => do
      let r ← A.row.rd s.2.1
      let c ← A.index.rd i
      if r = c then do
        let t ← f r i s.2.2.2
        let k := s.2.2.1 - 1
        if k = 0 then pure (true, true, s.2.1, k, t) else pure (false, false, s.2.1 + 1, k, t)
      else pure (false, false, s.2.1 + 1, s.2.2)
    pure (r.1, r.2.2)
  pure r.2

/-- `lis_matrix_get_diagonal_jad`, unsplit, serial. src/matrix/lis_matrix_jad.c:415-487 -/
def getDiagonalJad (A : Jad R) (d : Arr R) : Option (Arr R) :=
  jadDiagScan A d fun r i d => do
    let v ← A.value.rd i
    d.wr r v

/-- `lis_matrix_shift_diagonal_jad`, unsplit, serial. src/matrix/lis_matrix_jad.c:490-562 -/
def shiftDiagonalJad [Sub R] (A : Jad R) (sigma : R) : Option (Jad R) := do
  let value ← jadDiagScan A A.value fun _ i value => subAt value i sigma
  pure { A with value := value }

/-- `lis_matrix_scale_jad`, unsplit, one thread. src/matrix/lis_matrix_jad.c:565-655 -/
def scaleJad [Mul R] (A : Jad R) (d : Arr R) : Option (Jad R) := do
  let value ← loop 0 A.maxnzr A.value fun j value => do
    let js ← A.ptr.rd j
    let je ← A.ptr.rd (j + 1)
    let (_, value) ← loop js je (0, value) fun i (s : ℕ × Arr R) => do
      let r ← A.row.rd s.1
      let w ← d.rd r
      let value ← mulCell s.2 i w
      pure (s.1 + 1, value)
    pure value
  pure { A with value := value }

/-- `lis_matrix_scale_symm_jad`, unsplit, one thread. src/matrix/lis_matrix_jad.c:658-748 -/
def scaleSymmJad [Mul R] (A : Jad R) (d : Arr R) : Option (Jad R) := do
  let value ← loop 0 A.maxnzr A.value fun j value => do
    let js ← A.ptr.rd j
    let je ← A.ptr.rd (j + 1)
    let (_, value) ← loop js je (0, value) fun i (s : ℕ × Arr R) => do
      let r ← A.row.rd s.1
      let w ← d.rd r
      let c ← A.index.rd i
      let wc ← d.rd c
      let value ← mulCell s.2 i (w * wc)
      pure (s.1 + 1, value)
    pure value
  pure { A with value := value }

/-! ### the block formats -/

/-- The scan of one block row shared by the get_diagonal and shift_diagonal functions of BSR, BSC and VBR: starting at
row `i0`, over the blocks `bj = lo … hi-1`; `blk bj` reads the block's column number `bjj`, its number of columns `bnc` and
the position `base` of its first element; `f row position state` is the statement executed on every diagonal element.
```
k = 0; i = i0;
for(bj=lo;bj<hi;bj++) {
  if( i>=bjj*bnc && i<(bjj+1)*bnc )
    for(j=i%bnc;j<bnc&&k<bnr&&i<n;j++) { f(i, base+j*bnr+k); i++; k++; }
  if( k==bnr ) break;
}
```
src/matrix/lis_matrix_bsr.c:722-740, :780-798, lis_matrix_bsc.c:774-792, :832-850, lis_matrix_vbr.c:908-928, :972-992 -/
def blockDiagScan {σ : Type} (n bnr i0 lo hi : ℕ) (blk : ℕ → Option (ℕ × ℕ × ℕ)) (s : σ)
    (f : ℕ → ℕ → σ → Option σ) : Option σ := do
  let r ← loopB lo hi (i0, 0, s) fun bj (s : ℕ × ℕ × σ) => do
    let (bjj, bnc, base) ← blk bj
    let s ← if s.1 ≥ bjj * bnc ∧ s.1 < (bjj + 1) * bnc then
        loopB (s.1 % bnc) bnc s fun j (s : ℕ × ℕ × σ) =>
          if s.2.1 < bnr ∧ s.1 < n then do
            let t ← f s.1 (base + j * bnr + s.2.1) s.2.2
            pure (false, s.1 + 1, s.2.1 + 1, t)
          else pure (true, s)
      else pure s
    pure (decide (s.2.1 = bnr), s)
  pure r.2.2

/-- the whole scan of a BSR matrix. src/matrix/lis_matrix_bsr.c:719-741 -/
def bsrDiagScan {σ : Type} (A : Bsr R) (s : σ) (f : ℕ → ℕ → σ → Option σ) : Option σ :=
  loop 0 A.nr s fun bi s => do
    let a ← A.bptr.rd bi
    let b ← A.bptr.rd (bi + 1)
    blockDiagScan A.n A.bnr (bi * A.bnr) a b
      (fun bj => do
        let bjj ← A.bindex.rd bj
        pure (bjj, A.bnc, bj * (A.bnr * A.bnc))) s f

/-- `lis_matrix_get_diagonal_bsr`, unsplit. src/matrix/lis_matrix_bsr.c:690-745 -/
def getDiagonalBsr (A : Bsr R) (d : Arr R) : Option (Arr R) :=
  bsrDiagScan A d fun i p d => do
    let v ← A.value.rd p
    d.wr i v

/-- `lis_matrix_shift_diagonal_bsr`, unsplit. src/matrix/lis_matrix_bsr.c:748-803 -/
def shiftDiagonalBsr [Sub R] (A : Bsr R) (sigma : R) : Option (Bsr R) := do
  let value ← bsrDiagScan A A.value fun _ p value => subAt value p sigma
  pure { A with value := value }

/-- `lis_matrix_scale_bsr`, unsplit. src/matrix/lis_matrix_bsr.c:805-878 -/
def scaleBsr [Mul R] (A : Bsr R) (d : Arr R) : Option (Bsr R) := do
  let value ← loop 0 A.nr A.value fun bi value => do
    let a ← A.bptr.rd bi
    let b ← A.bptr.rd (bi + 1)
    loop a b value fun bj value =>
      loop 0 A.bnc value fun j value =>
        loop 0 A.bnr value fun i value => do
          let w ← d.rd (bi * A.bnr + i)
          mulCell value (bj * (A.bnr * A.bnc) + j * A.bnr + i) w
  pure { A with value := value }

/-- `lis_matrix_scale_symm_bsr`, unsplit. src/matrix/lis_matrix_bsr.c:881-960 -/
def scaleSymmBsr [Mul R] (A : Bsr R) (d : Arr R) : Option (Bsr R) := do
  let value ← loop 0 A.nr A.value fun bi value => do
    let a ← A.bptr.rd bi
    let b ← A.bptr.rd (bi + 1)
    loop a b value fun bj value => do
      let bjj ← A.bindex.rd bj
      loop 0 A.bnc value fun j value =>
        loop 0 A.bnr value fun i value => do
          let w ← d.rd (bi * A.bnr + i)
          let w' ← d.rd (bjj * A.bnc + j)
          mulCell value (bj * (A.bnr * A.bnc) + j * A.bnr + i) (w * w')
  pure { A with value := value }

/-- the whole scan of a BSC matrix: the same text as for BSR, over `nr` block *columns*.
src/matrix/lis_matrix_bsc.c:771-793 -/
def bscDiagScan {σ : Type} (A : Bsc R) (s : σ) (f : ℕ → ℕ → σ → Option σ) : Option σ :=
  loop 0 A.nr s fun bi s => do
    let a ← A.bptr.rd bi
    let b ← A.bptr.rd (bi + 1)
    blockDiagScan A.n A.bnr (bi * A.bnr) a b
      (fun bj => do
        let bjj ← A.bindex.rd bj
        pure (bjj, A.bnc, bj * (A.bnr * A.bnc))) s f

/-- `lis_matrix_get_diagonal_bsc`, unsplit. src/matrix/lis_matrix_bsc.c:742-797 -/
def getDiagonalBsc (A : Bsc R) (d : Arr R) : Option (Arr R) :=
  bscDiagScan A d fun i p d => do
    let v ← A.value.rd p
    d.wr i v

/-- `lis_matrix_shift_diagonal_bsc`, unsplit. src/matrix/lis_matrix_bsc.c:800-855 -/
def shiftDiagonalBsc [Sub R] (A : Bsc R) (sigma : R) : Option (Bsc R) := do
  let value ← bscDiagScan A A.value fun _ p value => subAt value p sigma
  pure { A with value := value }

/-- `lis_matrix_scale_bsc`, unsplit: the text of the BSR function, so block *column* `bi` is multiplied by
`d[bi*bnr+i]`. src/matrix/lis_matrix_bsc.c:857-930 -/
def scaleBsc [Mul R] (A : Bsc R) (d : Arr R) : Option (Bsc R) := do
  let value ← loop 0 A.nr A.value fun bi value => do
    let a ← A.bptr.rd bi
    let b ← A.bptr.rd (bi + 1)
    loop a b value fun bj value =>
      loop 0 A.bnc value fun j value =>
        loop 0 A.bnr value fun i value => do
          let w ← d.rd (bi * A.bnr + i)
          mulCell value (bj * (A.bnr * A.bnc) + j * A.bnr + i) w
  pure { A with value := value }

/-- `lis_matrix_scale_symm_bsc`, unsplit: the text of the BSR function. src/matrix/lis_matrix_bsc.c:933-1012 -/
def scaleSymmBsc [Mul R] (A : Bsc R) (d : Arr R) : Option (Bsc R) := do
  let value ← loop 0 A.nr A.value fun bi value => do
    let a ← A.bptr.rd bi
    let b ← A.bptr.rd (bi + 1)
    loop a b value fun bj value => do
      let bjj ← A.bindex.rd bj
      loop 0 A.bnc value fun j value =>
        loop 0 A.bnr value fun i value => do
          let w ← d.rd (bi * A.bnr + i)
          let w' ← d.rd (bjj * A.bnc + j)
          mulCell value (bj * (A.bnr * A.bnc) + j * A.bnr + i) (w * w')
  pure { A with value := value }

/-- the whole scan of a VBR matrix. src/matrix/lis_matrix_vbr.c:904-929 -/
def vbrDiagScan {σ : Type} (A : Vbr R) (s : σ) (f : ℕ → ℕ → σ → Option σ) : Option σ :=
  loop 0 A.nr s fun bi s => do
    let r0 ← A.row.rd bi
    let r1 ← A.row.rd (bi + 1)
    let a ← A.bptr.rd bi
    let b ← A.bptr.rd (bi + 1)
    blockDiagScan A.n (r1 - r0) r0 a b
      (fun bj => do
        let bjj ← A.bindex.rd bj
        let c1 ← A.col.rd (bjj + 1)
        let c0 ← A.col.rd bjj
        let base ← A.ptr.rd bj
        pure (bjj, c1 - c0, base)) s f

/-- `lis_matrix_get_diagonal_vbr`, unsplit. src/matrix/lis_matrix_vbr.c:876-934 -/
def getDiagonalVbr (A : Vbr R) (d : Arr R) : Option (Arr R) :=
  vbrDiagScan A d fun i p d => do
    let v ← A.value.rd p
    d.wr i v

/-- `lis_matrix_shift_diagonal_vbr`, unsplit. src/matrix/lis_matrix_vbr.c:937-997 -/
def shiftDiagonalVbr [Sub R] (A : Vbr R) (sigma : R) : Option (Vbr R) := do
  let value ← vbrDiagScan A A.value fun _ p value => subAt value p sigma
  pure { A with value := value }

/-- `lis_matrix_scale_vbr`, unsplit: `k` runs from the start of the block row's first block through its blocks.
src/matrix/lis_matrix_vbr.c:1000-1074 -/
def scaleVbr [Mul R] (A : Vbr R) (d : Arr R) : Option (Vbr R) := do
  let value ← loop 0 A.nr A.value fun bi value => do
    let a ← A.bptr.rd bi
    let k ← A.ptr.rd a
    let b ← A.bptr.rd (bi + 1)
    let (_, value) ← loop a b (k, value) fun bj (s : ℕ × Arr R) => do
      let bjj ← A.bindex.rd bj
      let c0 ← A.col.rd bjj
      let c1 ← A.col.rd (bjj + 1)
      loop c0 c1 s fun _ s => do
        let r0 ← A.row.rd bi
        let r1 ← A.row.rd (bi + 1)
        loop r0 r1 s fun i s => do
          let w ← d.rd i
          let value ← mulCell s.2 s.1 w
          pure (s.1 + 1, value)
    pure value
  pure { A with value := value }

/-- `lis_matrix_scale_symm_vbr`, unsplit. src/matrix/lis_matrix_vbr.c:1077-1118 -/
def scaleSymmVbr [Mul R] (A : Vbr R) (d : Arr R) : Option (Vbr R) := do
  let value ← loop 0 A.nr A.value fun bi value => do
    let a ← A.bptr.rd bi
    let k ← A.ptr.rd a
    let b ← A.bptr.rd (bi + 1)
    let (_, value) ← loop a b (k, value) fun bj (s : ℕ × Arr R) => do
      let bjj ← A.bindex.rd bj
      let c0 ← A.col.rd bjj
      let c1 ← A.col.rd (bjj + 1)
      loop c0 c1 s fun j s => do
        let r0 ← A.row.rd bi
        let r1 ← A.row.rd (bi + 1)
        loop r0 r1 s fun i s => do
          let v ← s.2.rd s.1
          let wi ← d.rd i
          let wj ← d.rd j
          let value ← s.2.wr s.1 (v * wi * wj)
          pure (s.1 + 1, value)
    pure value
  pure { A with value := value }

/-! ### DNS -/

/-- `lis_matrix_get_diagonal_dns`. src/matrix/lis_matrix_dns.c:224-241 -/
def getDiagonalDns (A : Dns R) (d : Arr R) : Option (Arr R) :=
  loop 0 A.n d fun i d => do
    let v ← A.value.rd (i * A.n + i)
    d.wr i v

/-- `lis_matrix_shift_diagonal_dns`, unsplit. src/matrix/lis_matrix_dns.c:245-280 -/
def shiftDiagonalDns [Sub R] (A : Dns R) (sigma : R) : Option (Dns R) := do
  let value ← loop 0 A.n A.value fun i value => subAt value (i * A.n + i) sigma
  pure { A with value := value }

/-- `lis_matrix_scale_dns`. src/matrix/lis_matrix_dns.c:455-472 -/
def scaleDns [Mul R] (A : Dns R) (d : Arr R) : Option (Dns R) := do
  let value ← loop 0 A.np A.value fun j value =>
    loop 0 A.n value fun i value => do
      let w ← d.rd i
      mulCell value (j * A.n + i) w
  pure { A with value := value }

/-- `lis_matrix_scale_symm_dns`. src/matrix/lis_matrix_dns.c:476-493 -/
def scaleSymmDns [Mul R] (A : Dns R) (d : Arr R) : Option (Dns R) := do
  let value ← loop 0 A.np A.value fun j value =>
    loop 0 A.n value fun i value => do
      let wi ← d.rd i
      let wj ← d.rd j
      mulCell value (j * A.n + i) (wi * wj)
  pure { A with value := value }

/-! ### the API functions -/

namespace AnyMat

/-- `lis_matrix_get_diagonal` (every format that has a constructor here; the remaining matrix types are refused with
`LIS_ERR_NOT_IMPLEMENTED` before anything is written). src/matrix/lis_matrix_ops.c:728-778 -/
def getDiagonal [Zero R] (A : AnyMat R) (d : Arr R) : Option (Arr R) :=
  match A with
  | csr A => getDiagonalCsr A d
  | csc A => getDiagonalCsc A d
  | msr _ A => getDiagonalMsr A d
  | dia A => getDiagonalDia A d
  | ell A => getDiagonalEll A d
  | jad A => getDiagonalJad A d
  | bsr A => getDiagonalBsr A d
  | bsc A => getDiagonalBsc A d
  | vbr A => getDiagonalVbr A d
  | dns A => getDiagonalDns A d
  | coo A => getDiagonalCoo A d

/-- `lis_matrix_shift_diagonal`. src/matrix/lis_matrix_ops.c:781-830 -/
def shiftDiagonal [Sub R] (A : AnyMat R) (sigma : R) : Option (AnyMat R) :=
  match A with
  | csr A => do pure (csr (← shiftDiagonalCsr A sigma))
  | csc A => do pure (csc (← shiftDiagonalCsc A sigma))
  | msr z A => do pure (msr z (← shiftDiagonalMsr A sigma))
  | dia A => do pure (dia (← shiftDiagonalDia A sigma))
  | ell A => do pure (ell (← shiftDiagonalEll A sigma))
  | jad A => do pure (jad (← shiftDiagonalJad A sigma))
  | bsr A => do pure (bsr (← shiftDiagonalBsr A sigma))
  | bsc A => do pure (bsc (← shiftDiagonalBsc A sigma))
  | vbr A => do pure (vbr (← shiftDiagonalVbr A sigma))
  | dns A => do pure (dns (← shiftDiagonalDns A sigma))
  | coo A => do pure (coo (← shiftDiagonalCoo A sigma))

/-- the `switch` on `matrix_type` for `LIS_SCALE_JACOBI`. src/matrix/lis_matrix_ops.c:660-699 -/
def scaleBy [Mul R] [One R] (A : AnyMat R) (d : Arr R) : Option (AnyMat R) :=
  match A with
  | csr A => do pure (csr (← scaleCsr A d))
  | csc A => do pure (csc (← scaleCsc A d))
  | msr z A => do pure (msr z (← scaleMsr A d))
  | dia A => do pure (dia (← scaleDia A d))
  | ell A => do pure (ell (← scaleEll A d))
  | jad A => do pure (jad (← scaleJad A d))
  | bsr A => do pure (bsr (← scaleBsr A d))
  | bsc A => do pure (bsc (← scaleBsc A d))
  | vbr A => do pure (vbr (← scaleVbr A d))
  | dns A => do pure (dns (← scaleDns A d))
  | coo A => do pure (coo (← scaleCoo A d))

/-- the `switch` on `matrix_type` for `LIS_SCALE_SYMM_DIAG`. src/matrix/lis_matrix_ops.c:611-650 -/
def scaleSymmBy [Mul R] [One R] (A : AnyMat R) (d : Arr R) : Option (AnyMat R) :=
  match A with
  | csr A => do pure (csr (← scaleSymmCsr A d))
  | csc A => do pure (csc (← scaleSymmCsc A d))
  | msr z A => do pure (msr z (← scaleSymmMsr A d))
  | dia A => do pure (dia (← scaleSymmDia A d))
  | ell A => do pure (ell (← scaleSymmEll A d))
  | jad A => do pure (jad (← scaleSymmJad A d))
  | bsr A => do pure (bsr (← scaleSymmBsr A d))
  | bsc A => do pure (bsc (← scaleSymmBsc A d))
  | vbr A => do pure (vbr (← scaleSymmVbr A d))
  | dns A => do pure (dns (← scaleSymmDns A d))
  | coo A => do pure (coo (← scaleSymmCoo A d))

/-- `lis_matrix_scale`, action `LIS_SCALE_JACOBI`: the new matrix, `b` and `d`.
src/matrix/lis_matrix_ops.c:579-590, 651-716 -/
def scaleJacobi [Zero R] [Mul R] [One R] (inv : R → R) (A : AnyMat R) (b d : Arr R) :
    Option (AnyMat R × Arr R × Arr R) := do
  let d ← A.getDiagonal d
  let d ← loop 0 A.n d fun i d => do
    let v ← d.rd i
    d.wr i (inv v)
  let A' ← A.scaleBy d
  let b ← loop 0 A.n b fun i b => do
    let v ← b.rd i
    let w ← d.rd i
    b.wr i (v * w)
  pure (A', b, d)

/-- `lis_matrix_scale`, action `LIS_SCALE_SYMM_DIAG`, serial (`np = n`); `rsq v` stands for `1.0/sqrt(fabs(v))`.
src/matrix/lis_matrix_ops.c:579-650, 702-716 -/
def scaleSymm [Zero R] [Mul R] [One R] (rsq : R → R) (A : AnyMat R) (b d : Arr R) :
    Option (AnyMat R × Arr R × Arr R) := do
  let d ← A.getDiagonal d
  let d ← loop 0 A.n d fun i d => do
    let v ← d.rd i
    d.wr i (rsq v)
  let A' ← A.scaleSymmBy d
  let b ← loop 0 A.n b fun i b => do
    let v ← b.rd i
    let w ← d.rd i
    b.wr i (v * w)
  pure (A', b, d)

end AnyMat
end Lis
