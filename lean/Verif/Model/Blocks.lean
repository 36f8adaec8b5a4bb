import Verif.Model.Assembly

/-!
# Model of the conversions to block formats

`lis_matrix_convert_rco2bsr` (src/matrix/lis_matrix_rco.c:323-490), `lis_matrix_convert_csr2bsr`
(src/matrix/lis_matrix_bsr.c:350-553) and `lis_matrix_convert_csc2bsc` (src/matrix/lis_matrix_bsc.c:351-559)
have the same loops; they differ in how a line (row or column) of the input is read and in the position
`ij` of an element in its block.  Both are parameters here.  Serial, one thread.
-/

namespace Lis
variable {R : Type}

/-- how the converter reads line `i` of its input: loop bounds, then column number and value of the
element at position `k` -/
structure Lines (R : Type) where
  lo : ℕ → Option ℕ
  hi : ℕ → Option ℕ
  col : ℕ → ℕ → Option ℕ
  val : ℕ → ℕ → Option R

/-- arrays of a block matrix -/
structure Blk (R : Type) where
  bnnz : ℕ
  bptr : Arr ℕ
  bindex : Arr ℕ
  value : Arr R

/-- counting one block line: which blocks occur. lis_matrix_rco.c:370-387, lis_matrix_bsr.c:418-439.
State: `iw`, `iw2`, `jj`. -/
def blkMark (S : Lines R) (n bmaj bmin i : ℕ) (s : Arr ℕ × Arr ℕ × ℕ) : Option (Arr ℕ × Arr ℕ × ℕ) :=
  let kk := bmaj * i
  loop 0 (min bmaj (n - kk)) (s.1, s.2.1, 0) fun ii s => do
    let a ← S.lo (kk + ii)
    let b ← S.hi (kk + ii)
    loop a b s fun j s => do
      let c ← S.col (kk + ii) j
      let bj := c / bmin
      let jpos ← s.1.rd bj
      if jpos = 0 then do
        let iw ← s.1.wr bj 1
        let iw2 ← s.2.1.wr s.2.2 bj
        pure (iw, iw2, s.2.2 + 1)
      else pure s

/-- counting pass. lis_matrix_rco.c:356-394, lis_matrix_bsr.c:399-448, lis_matrix_bsc.c:400-461 -/
def blkCount (S : Lines R) (n bmaj bmin nb nmin : ℕ) (junk : ℕ → ℕ → ℕ) (bptr : Arr ℕ) : Option (Arr ℕ) := do
  let iw ← loop 0 nmin (.malloc nmin (junk 1)) fun k (w : Arr ℕ) => w.wr k 0
  let iw2 : Arr ℕ := .malloc nmin (junk 2)
  let s ← loop 0 nb (bptr, iw, iw2) fun i (s : Arr ℕ × Arr ℕ × Arr ℕ) => do
    let t ← blkMark S n bmaj bmin i (s.2.1, s.2.2, 0)
    let r ← loop 0 t.2.2 ((0 : ℕ), t.1) fun bj (r : ℕ × Arr ℕ) => do
      let ii ← t.2.1.rd bj
      let iw ← r.2.wr ii 0
      pure (r.1 + 1, iw)
    let bptr ← s.1.wr (i + 1) r.1
    pure (bptr, r.2, t.2.1)
  pure s.1

/-- filling one block line; state `kk`, `iw`, `bindex`, `value`. lis_matrix_rco.c:432-462,
lis_matrix_bsr.c:492-524, lis_matrix_bsc.c:503-532 -/
def blkPut [Zero R] (S : Lines R) (pos : ℕ → ℕ → ℕ) (n bmaj bmin bi : ℕ)
    (s : ℕ × Arr ℕ × Arr ℕ × Arr R) : Option (ℕ × Arr ℕ × Arr ℕ × Arr R) :=
  let i := bi * bmaj
  loop 0 (min bmaj (n - i)) s fun ii s => do
    let a ← S.lo (i + ii)
    let b ← S.hi (i + ii)
    loop a b s fun k s => do
      let kk := s.1
      let j ← S.col (i + ii) k
      let bj := j / bmin
      let j := j % bmin
      let jpos ← s.2.1.rd bj
      if jpos = 0 then do
        let kv := kk * (bmaj * bmin)
        let iw ← s.2.1.wr bj (kv + 1)
        let bindex ← s.2.2.1.wr kk bj
        let value ← loop 0 (bmaj * bmin) s.2.2.2 fun jj (v : Arr R) => v.wr (kv + jj) 0
        let ij := pos ii j
        let v ← S.val (i + ii) k
        let value ← value.wr (kv + ij) v
        pure (kk + 1, iw, bindex, value)
      else do
        let ij := pos ii j
        let v ← S.val (i + ii) k
        let value ← s.2.2.2.wr (jpos + ij - 1) v
        pure (kk, s.2.1, s.2.2.1, value)

/-- filling pass. lis_matrix_rco.c:419-470, lis_matrix_bsr.c:475-531, lis_matrix_bsc.c:486-538 -/
def blkFill [Zero R] (S : Lines R) (pos : ℕ → ℕ → ℕ) (n bmaj bmin nb nmin : ℕ) (junk : ℕ → ℕ → ℕ)
    (bptr bindex : Arr ℕ) (value : Arr R) : Option (Arr ℕ × Arr R) := do
  let iw ← loop 0 nmin (.malloc nmin (junk 3)) fun k (w : Arr ℕ) => w.wr k 0
  let s ← loop 0 nb (iw, bindex, value) fun bi (s : Arr ℕ × Arr ℕ × Arr R) => do
    let kk ← bptr.rd bi
    let t ← blkPut S pos n bmaj bmin bi (kk, s.1, s.2.1, s.2.2)
    let lo ← bptr.rd bi
    let hi ← bptr.rd (bi + 1)
    let iw ← loop lo hi t.2.1 fun j iw => do
      let c ← t.2.2.1.rd j
      iw.wr c 0
    pure (iw, t.2.2.1, t.2.2.2)
  pure (s.2.1, s.2.2)

/-- the whole conversion: count, prefix sums, allocate, fill. lis_matrix_rco.c:347-470 etc. -/
def blkConvert [Zero R] (S : Lines R) (pos : ℕ → ℕ → ℕ) (n bmaj bmin nb nmin : ℕ) (junk : ℕ → ℕ → ℕ)
    (vjunk : ℕ → R) : Option (Blk R) := do
  let bptr ← blkCount S n bmaj bmin nb nmin junk (.malloc (nb + 1) (junk 0))
  let bptr ← bptr.wr 0 0
  let bptr ← loop 0 nb bptr fun i (p : Arr ℕ) => do
    let x ← p.rd (i + 1)
    let y ← p.rd i
    p.wr (i + 1) (x + y)
  let bnnz ← bptr.rd nb
  let (bindex, value) ← blkFill S pos n bmaj bmin nb nmin junk bptr (.malloc bnnz (junk 4))
    (.malloc (bnnz * (bmaj * bmin)) vjunk)
  pure ⟨bnnz, bptr, bindex, value⟩

/-- lines of the assembly buffers. lis_matrix_rco.c:374-376, :434-436 -/
def AMat.lines (A : AMat R) : Lines R where
  lo := fun _ => some 0
  hi := fun i => A.wrow.rd i
  col := fun i k => do let r ← A.widx.rd i; r.rd k
  val := fun i k => do let r ← A.wval.rd i; r.rd k

/-- lines (rows) of a CSR matrix. lis_matrix_bsr.c:423-429, :497-502 -/
def Csr.lines (A : Csr R) : Lines R where
  lo := fun i => A.ptr.rd i
  hi := fun i => A.ptr.rd (i + 1)
  col := fun _ k => A.index.rd k
  val := fun _ k => A.value.rd k

/-- lines (columns) of a CSC matrix. lis_matrix_bsc.c:440-442, :508-510 -/
def Csc.lines (A : Csc R) : Lines R where
  lo := fun i => A.ptr.rd i
  hi := fun i => A.ptr.rd (i + 1)
  col := fun _ k => A.index.rd k
  val := fun _ k => A.value.rd k

/-- `lis_matrix_convert_rco2bsr`. src/matrix/lis_matrix_rco.c:323-490 -/
def rco2bsr [Zero R] (bnr bnc : ℕ) (junk : ℕ → ℕ → ℕ) (vjunk : ℕ → R) (A : AMat R) : Option (Bsr R) := do
  let nr := 1 + (A.n - 1) / bnr
  let nc := 1 + (A.gn - 1) / bnc
  let B ← blkConvert A.lines (fun ii j => j * bnr + ii) A.n bnr bnc nr nc junk vjunk
  pure ⟨A.n, nr, nc, bnr, bnc, B.bnnz, B.bptr, B.bindex, B.value⟩

/-- `lis_matrix_convert_csr2bsr`, `n==np`. src/matrix/lis_matrix_bsr.c:350-553 -/
def csr2bsr [Zero R] (bnr bnc : ℕ) (junk : ℕ → ℕ → ℕ) (vjunk : ℕ → R) (A : Csr R) : Option (Bsr R) := do
  let nr := 1 + (A.n - 1) / bnr
  let nc := 1 + (A.n - 1) / bnc
  let B ← blkConvert A.lines (fun ii j => j * bnr + ii) A.n bnr bnc nr nc junk vjunk
  pure ⟨A.n, nr, nc, bnr, bnc, B.bnnz, B.bptr, B.bindex, B.value⟩

/-- `lis_matrix_convert_csc2bsc`, `n==np`. src/matrix/lis_matrix_bsc.c:351-559.  NB the position in
the block is `j + ii*bnc` (:520,:526) although blocks are stored with leading dimension `bnr`. -/
def csc2bsc [Zero R] (bnr bnc : ℕ) (junk : ℕ → ℕ → ℕ) (vjunk : ℕ → R) (A : Csc R) : Option (Bsc R) := do
  let nr := 1 + (A.n - 1) / bnr
  let nc := 1 + (A.n - 1) / bnc
  let B ← blkConvert A.lines (fun ii j => j + ii * bnc) A.np bnc bnr nc nr junk vjunk
  pure ⟨A.n, nr, nc, bnr, bnc, B.bnnz, B.bptr, B.bindex, B.value⟩

end Lis
