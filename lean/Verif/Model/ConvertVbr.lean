import Verif.Spec.Formats3
import Verif.Model.Sort
import Verif.Model.CsrOps

/-!
# Model of the conversions CSR → VBR → CSR (src/matrix/lis_matrix_vbr.c)

Serial code, one thread, `gn = n` (one process).  `junk k` / `vjunk` are the unspecified contents of freshly
allocated arrays; `bnr` and block widths are differences of neighbours in `row` and `col`, which the theorems
require to be non-decreasing, so that truncated subtraction is the C subtraction.
-/

namespace Lis
variable {R : Type}

/-- marking the block boundaries of row `i`; state `iw`. lis_matrix_vbr.c:282-302 -/
def vbrMarkRow (A : Csr R) (i : ℕ) (iw : Arr ℕ) : Option (Arr ℕ) := do
  let a ← A.ptr.rd i
  let b ← A.ptr.rd (i + 1)
  if a < b then do
    let jj ← A.index.rd a
    let iw ← iw.wr jj 1
    let s ← loop (a + 1) b (jj, iw) fun j (s : ℕ × Arr ℕ) => do
      let jj ← A.index.rd j
      let kk ← A.index.rd (j - 1)
      if kk + 1 ≠ jj then do
        let iw ← s.2.wr jj 1
        let iw ← iw.wr (kk + 1) 1
        pure (jj, iw)
      else pure (jj, s.2)
    s.2.wr (s.1 + 1) 1
  else pure iw

/-- `lis_matrix_get_vbr_rowcol`: the number of blocks and the block boundaries, the same for rows and columns.
lis_matrix_vbr.c:262-334 -/
def vbrRowcol (junk : ℕ → ℕ → ℕ) (A : Csr R) : Option (ℕ × Arr ℕ) := do
  let iw : Arr ℕ := .malloc (A.n + 1) (junk 0)
  let iw ← loop 0 (A.n + 1) iw fun i (w : Arr ℕ) => w.wr i 0
  let iw ← loop 0 A.n iw fun i iw => vbrMarkRow A i iw
  let iw ← iw.wr 0 0
  let s ← loop 1 (A.n + 1) ((0 : ℕ), iw) fun i (s : ℕ × Arr ℕ) => do
    let x ← s.2.rd i
    if x ≠ 0 then do
      let w ← s.2.wr (s.1 + 1) i
      pure (s.1 + 1, w)
    else pure s
  let row ← loop 0 (s.1 + 1) (.malloc (s.1 + 1) (junk 1)) fun k (r : Arr ℕ) => do
    let x ← s.2.rd k
    r.wr k x
  pure (s.1, row)

/-- `p2bindex`: the block column of each column. lis_matrix_vbr.c:558-564 -/
def vbrP2b (nc : ℕ) (col p2b : Arr ℕ) : Option (Arr ℕ) :=
  loop 0 nc p2b fun i p => do
    let a ← col.rd i
    let b ← col.rd (i + 1)
    loop a b p fun j (p : Arr ℕ) => p.wr j i

/-- which block columns occur in rows `kk … kk+bnr-1`; state `iw`, `iw2`, `jj`. lis_matrix_vbr.c:586-600 -/
def vbrMark (A : Csr R) (p2b : Arr ℕ) (kk bnr : ℕ) (s : Arr ℕ × Arr ℕ × ℕ) : Option (Arr ℕ × Arr ℕ × ℕ) :=
  loop 0 (min bnr (A.n - kk)) s fun ii s => do
    let a ← A.ptr.rd (kk + ii)
    let b ← A.ptr.rd (kk + ii + 1)
    loop a b s fun j s => do
      let c ← A.index.rd j
      let bj ← p2b.rd c
      let jpos ← s.1.rd bj
      if jpos = 0 then do
        let iw ← s.1.wr bj 1
        let iw2 ← s.2.1.wr s.2.2 bj
        pure (iw, iw2, s.2.2 + 1)
      else pure s

/-- counting pass: number of blocks (`bptr`) and of stored values (`count`) of each block row.
lis_matrix_vbr.c:568-616 -/
def vbrCount (A : Csr R) (nr nc : ℕ) (row col p2b : Arr ℕ) (junk : ℕ → ℕ → ℕ) (bptr count : Arr ℕ) :
    Option (Arr ℕ × Arr ℕ) := do
  let count ← loop 0 (nr + 1) count fun k (w : Arr ℕ) => w.wr k 0
  let iw : Arr ℕ := .malloc nc (junk 2)
  let iw2 : Arr ℕ := .malloc nc (junk 3)
  let iw ← loop 0 nc iw fun k (w : Arr ℕ) => w.wr k 0
  let s ← loop 0 nr (bptr, count, iw, iw2) fun i (s : Arr ℕ × Arr ℕ × Arr ℕ × Arr ℕ) => do
    let kk ← row.rd i
    let e ← row.rd (i + 1)
    let t ← vbrMark A p2b kk (e - kk) (s.2.2.1, s.2.2.2, 0)
    let r ← loop 0 t.2.2 ((0 : ℕ), t.1, s.2.1) fun bj (r : ℕ × Arr ℕ × Arr ℕ) => do
      let ii ← t.2.1.rd bj
      let iw ← r.2.1.wr ii 0
      let c1 ← col.rd (ii + 1)
      let c0 ← col.rd ii
      let o ← r.2.2.rd (i + 1)
      let count ← r.2.2.wr (i + 1) (o + (e - kk) * (c1 - c0))
      pure (r.1 + 1, iw, count)
    let bptr ← s.1.wr (i + 1) r.1
    pure (bptr, r.2.2, r.2.1, t.2.1)
  pure (s.1, s.2.1)

/-- one element of a block row: a new block, or a place in a block already there.  State `kk`, `kv`, `iw`, `ptr`,
`bindex`, `value`. lis_matrix_vbr.c:687-711 -/
def vbrPutElem [Zero R] (A : Csr R) (col p2b : Arr ℕ) (bnr ii k : ℕ) (s : ℕ × ℕ × Arr ℕ × Arr ℕ × Arr ℕ × Arr R) :
    Option (ℕ × ℕ × Arr ℕ × Arr ℕ × Arr ℕ × Arr R) := do
  let (kk, kv, iw, ptr, bindex, value) := s
  let c ← A.index.rd k
  let bj ← p2b.rd c
  let c0 ← col.rd bj
  let j := c - c0
  let jpos ← iw.rd bj
  if jpos = 0 then do
    let c1 ← col.rd (bj + 1)
    let ret := bnr * (c1 - c0)
    let value ← loop 0 ret value fun l (v : Arr R) => v.wr (kv + l) 0
    let bindex ← bindex.wr kk bj
    let v ← A.value.rd k
    let value ← value.wr (kv + (j * bnr + ii)) v
    let iw ← iw.wr bj (kv + 1)
    let ptr ← ptr.wr (kk + 1) (kv + ret)
    pure (kk + 1, kv + ret, iw, ptr, bindex, value)
  else do
    let v ← A.value.rd k
    let value ← value.wr (jpos + (j * bnr + ii) - 1) v
    pure (kk, kv, iw, ptr, bindex, value)

/-- filling one block row that starts at row `i`. lis_matrix_vbr.c:682-714 -/
def vbrPut [Zero R] (A : Csr R) (col p2b : Arr ℕ) (i bnr : ℕ) (s : ℕ × ℕ × Arr ℕ × Arr ℕ × Arr ℕ × Arr R) :
    Option (ℕ × ℕ × Arr ℕ × Arr ℕ × Arr ℕ × Arr R) :=
  loop 0 (min bnr (A.n - i)) s fun ii s => do
    let a ← A.ptr.rd (i + ii)
    let b ← A.ptr.rd (i + ii + 1)
    loop a b s fun k s => vbrPutElem A col p2b bnr ii k s

/-- filling pass. lis_matrix_vbr.c:655-726 -/
def vbrFill [Zero R] (A : Csr R) (nr nc : ℕ) (row col p2b bptr count : Arr ℕ) (junk : ℕ → ℕ → ℕ)
    (ptr bindex : Arr ℕ) (value : Arr R) : Option (Arr ℕ × Arr ℕ × Arr R) := do
  let ptr ← loop 0 nr ptr fun i (p : Arr ℕ) => do
    let j ← bptr.rd i
    let c ← count.rd i
    p.wr j c
  let iw ← loop 0 nc (.malloc nc (junk 6)) fun k (w : Arr ℕ) => w.wr k 0
  let s ← loop 0 nr (iw, ptr, bindex, value) fun bi (s : Arr ℕ × Arr ℕ × Arr ℕ × Arr R) => do
    let i ← row.rd bi
    let kk ← bptr.rd bi
    let kv ← s.2.1.rd kk
    let e ← row.rd (bi + 1)
    let t ← vbrPut A col p2b i (e - i) (kk, kv, s.1, s.2.1, s.2.2.1, s.2.2.2)
    let lo ← bptr.rd bi
    let hi ← bptr.rd (bi + 1)
    let iw ← loop lo hi t.2.2.1 fun j (iw : Arr ℕ) => do
      let c ← t.2.2.2.2.1.rd j
      iw.wr c 0
    pure (iw, t.2.2.2.1, t.2.2.2.2.1, t.2.2.2.2.2)
  pure (s.2.1, s.2.2.1, s.2.2.2)

/-- `lis_matrix_convert_csr2vbr` for the partition `row`, `col` (given by the user through
lis_matrix_set_blocksize, or found by `vbrRowcol`). lis_matrix_vbr.c:524-742 -/
def csr2vbrWith [Zero R] (nr nc : ℕ) (row col : Arr ℕ) (junk : ℕ → ℕ → ℕ) (vjunk : ℕ → R) (A : Csr R) :
    Option (Vbr R) := do
  let p2b ← vbrP2b nc col (.malloc A.n (junk 7))
  let (bptr, count) ← vbrCount A nr nc row col p2b junk (.malloc (nr + 1) (junk 0)) (.malloc (nr + 1) (junk 1))
  let bptr ← bptr.wr 0 0
  let bptr ← loop 0 nr bptr fun i (p : Arr ℕ) => do
    let x ← p.rd (i + 1)
    let y ← p.rd i
    p.wr (i + 1) (x + y)
  let bnnz ← bptr.rd nr
  let count ← loop 0 nr count fun i (p : Arr ℕ) => do
    let x ← p.rd (i + 1)
    let y ← p.rd i
    p.wr (i + 1) (x + y)
  let nnz ← count.rd nr
  let (ptr, bindex, value) ← vbrFill A nr nc row col p2b bptr count junk (.malloc (bnnz + 1) (junk 4))
    (.malloc bnnz (junk 5)) (.malloc nnz vjunk)
  pure ⟨A.n, nr, nc, bnnz, row, col, ptr, bptr, bindex, value⟩

/-- `lis_matrix_convert_csr2vbr` without a partition from the user: sorts its input (first component) and
finds one. lis_matrix_vbr.c:517-523 -/
def csr2vbr [Zero R] (junk : ℕ → ℕ → ℕ) (vjunk : ℕ → R) (A : Csr R) : Option (Csr R × Vbr R) := do
  let A ← sortCsr A
  let (nr, row) ← vbrRowcol (fun k => junk (k + 8)) A
  let B ← csr2vbrWith nr nr row row junk vjunk A
  pure (A, B)

/-- one row of lis_matrix_convert_vbr2csr: row `i` of block row `bi`. lis_matrix_vbr.c:838-853 -/
def vbr2csrRow [Zero R] [DecidableEq R] (A : Vbr R) (bi bnr i : ℕ) (s : ℕ × Arr ℕ × Arr R) :
    Option (ℕ × Arr ℕ × Arr R) := do
  let a ← A.bptr.rd bi
  let b ← A.bptr.rd (bi + 1)
  loop a b s fun bj s => do
    let c ← A.bindex.rd bj
    let c1 ← A.col.rd (c + 1)
    let c0 ← A.col.rd c
    loop 0 (c1 - c0) s fun j (s : ℕ × Arr ℕ × Arr R) => do
      let p ← A.ptr.rd bj
      let v ← A.value.rd (p + j * bnr + i)
      if v ≠ 0 then do
        let value ← s.2.2.wr s.1 v
        let index ← s.2.1.wr s.1 (c0 + j)
        pure (s.1 + 1, index, value)
      else pure s

/-- `lis_matrix_convert_vbr2csr`. lis_matrix_vbr.c:746-872 -/
def vbr2csr [Zero R] [DecidableEq R] (junk : ℕ → ℕ → ℕ) (vjunk : ℕ → R) (A : Vbr R) : Option (Csr R) := do
  let ptr : Arr ℕ := .malloc (A.n + 1) (junk 0)
  let ptr ← loop 0 A.nr ptr fun bi p => do
    let k ← A.row.rd bi
    let e ← A.row.rd (bi + 1)
    loop 0 (e - k) p fun i (p : Arr ℕ) => p.wr (k + i + 1) 0
  let ptr ← loop 0 A.nr ptr fun bi p => do
    let k ← A.row.rd bi
    let e ← A.row.rd (bi + 1)
    let a ← A.bptr.rd bi
    let b ← A.bptr.rd (bi + 1)
    loop a b p fun bj p => do
      let c ← A.bindex.rd bj
      let c1 ← A.col.rd (c + 1)
      let c0 ← A.col.rd c
      loop 0 (c1 - c0) p fun j p =>
        loop 0 (e - k) p fun i (p : Arr ℕ) => do
          let q ← A.ptr.rd bj
          let v ← A.value.rd (q + j * (e - k) + i)
          if v ≠ 0 then do
            let o ← p.rd (k + i + 1)
            p.wr (k + i + 1) (o + 1)
          else pure p
  let ptr ← ptr.wr 0 0
  let ptr ← loop 0 A.n ptr fun i (p : Arr ℕ) => do
    let x ← p.rd (i + 1)
    let y ← p.rd i
    p.wr (i + 1) (x + y)
  let nnz ← ptr.rd A.n
  let s ← loop 0 A.nr ((.malloc nnz (junk 1) : Arr ℕ), (.malloc nnz vjunk : Arr R)) fun bi s => do
    let l ← A.row.rd bi
    let e ← A.row.rd (bi + 1)
    loop 0 (e - l) s fun i (s : Arr ℕ × Arr R) => do
      let k ← ptr.rd (l + i)
      let t ← vbr2csrRow A bi (e - l) i (k, s.1, s.2)
      pure (t.2.1, t.2.2)
  pure ⟨A.n, A.n, nnz, ptr, s.1, s.2⟩

end Lis
