import Verif.Spec.Formats2
import Verif.Spec.Formats3
import Verif.Model.Sort
import Verif.Model.CsrOps

/-!
# Model of the conversions COO, DIA, JAD, BSR, BSC → CSR and CSR → DIA, JAD

Serial code (`LIS_GET_ISIE` gives `is=0`, `ie=n`, one thread).  `junk k` / `vjunk` are the unspecified
contents of freshly allocated arrays.  The final `lis_matrix_set_xxx`/`lis_matrix_assemble` only store the
pointers and are not modelled.
-/

namespace Lis
variable {R : Type}

/-- `for(i=0;i<n;i++) p[i+1] += p[i];` -/
def prefixSums (n : ℕ) (p : Arr ℕ) : Option (Arr ℕ) :=
  loop 0 n p fun i (p : Arr ℕ) => do
    let x ← p.rd (i + 1)
    let y ← p.rd i
    p.wr (i + 1) (x + y)

/-- `lis_matrix_convert_coo2csr`; the first component is the input matrix, which the function sorts in
place. src/matrix/lis_matrix_coo.c:784-850 -/
def coo2csr (junk : ℕ → ℕ → ℕ) (vjunk : ℕ → R) (A : Coo R) : Option (Coo R × Csr R) := do
  let ptr : Arr ℕ := .malloc (A.n + 1) (junk 0)
  let index : Arr ℕ := .malloc A.nnz (junk 1)
  let value : Arr R := .malloc A.nnz vjunk
  let s ← lisSortIid 0 ((A.nnz : ℤ) - 1) (A.row, A.col, A.value)
  let ptr ← loop 0 (A.n + 1) ptr fun i (p : Arr ℕ) => p.wr i 0
  let ptr ← loop 0 A.nnz ptr fun i (p : Arr ℕ) => do
    let r ← s.1.rd i
    let o ← p.rd (r + 1)
    p.wr (r + 1) (o + 1)
  let ptr ← prefixSums A.n ptr
  let t ← loop 0 A.n (index, value) fun i t => do
    let a ← ptr.rd i
    let b ← ptr.rd (i + 1)
    loop a b t fun j (t : Arr ℕ × Arr R) => do
      let v ← s.2.2.rd j
      let value ← t.2.wr j v
      let c ← s.2.1.rd j
      let index ← t.1.wr j c
      pure (index, value)
  pure (⟨A.n, A.nnz, s.1, s.2.1, s.2.2⟩, ⟨A.n, A.n, A.nnz, ptr, t.1, t.2⟩)

/-- the element loop of lis_matrix_convert_dia2csr over one diagonal (`jj` is its offset).
src/matrix/lis_matrix_dia.c:1349-1363, :1402-1417 -/
def diaRange (n : ℕ) (jj : ℤ) : ℕ × ℕ := ((max 0 (-jj)).toNat, (min (n : ℤ) (n - jj)).toNat)

/-- `lis_matrix_convert_dia2csr`. src/matrix/lis_matrix_dia.c:1307-1444 -/
def dia2csr [Zero R] [DecidableEq R] (junk : ℕ → ℕ → ℕ) (vjunk : ℕ → R) (A : Dia R) : Option (Csr R) := do
  let iw : Arr ℕ := .malloc (A.n + 1) (junk 0)
  let iw ← iw.wr 0 0
  let iw ← loop 0 A.n iw fun i (w : Arr ℕ) => w.wr (i + 1) 0
  let iw ← loop 0 A.nnd iw fun j iw => do
    let jj ← A.index.rd j
    loop (diaRange A.n jj).1 (diaRange A.n jj).2 iw fun i (iw : Arr ℕ) => do
      let v ← A.value.rd (j * A.n + i)
      if v ≠ 0 then do
        let o ← iw.rd (i + 1)
        iw.wr (i + 1) (o + 1)
      else pure iw
  let iw ← prefixSums A.n iw
  let nnz ← iw.rd A.n
  let ptr : Arr ℕ := .malloc (A.n + 1) (junk 1)
  let index : Arr ℕ := .malloc nnz (junk 2)
  let value : Arr R := .malloc nnz vjunk
  let ptr ← ptr.wr 0 0
  let ptr ← loop 0 A.n ptr fun i (p : Arr ℕ) => do
    let x ← iw.rd (i + 1)
    p.wr (i + 1) x
  let (_, index, value) ← loop 0 A.nnd (iw, index, value) fun j s => do
    let jj ← A.index.rd j
    loop (diaRange A.n jj).1 (diaRange A.n jj).2 s fun i (s : Arr ℕ × Arr ℕ × Arr R) => do
      let v ← A.value.rd (j * A.n + i)
      if v ≠ 0 then do
        let k ← s.1.rd i
        let iw ← s.1.wr i (k + 1)
        let value ← s.2.2.wr k v
        let index ← s.2.1.wr k ((i : ℤ) + jj).toNat
        pure (iw, index, value)
      else pure s
  pure ⟨A.n, A.n, nnz, ptr, index, value⟩

/-- `lis_matrix_convert_jad2csr`. src/matrix/lis_matrix_jad.c:2049-2185 -/
def jad2csr (junk : ℕ → ℕ → ℕ) (vjunk : ℕ → R) (A : Jad R) : Option (Csr R) := do
  let iw : Arr ℕ := .malloc A.n (junk 0)
  let ptr : Arr ℕ := .malloc (A.n + 1) (junk 1)
  let index : Arr ℕ := .malloc A.nnz (junk 2)
  let value : Arr R := .malloc A.nnz vjunk
  let ptr ← loop 0 (A.n + 1) ptr fun i (p : Arr ℕ) => p.wr i 0
  let ptr ← loop 0 A.maxnzr ptr fun j p => do
    let a ← A.ptr.rd j
    let b ← A.ptr.rd (j + 1)
    let s ← loop a b ((0 : ℕ), p) fun _ (s : ℕ × Arr ℕ) => do
      let r ← A.row.rd s.1
      let o ← s.2.rd (r + 1)
      let p ← s.2.wr (r + 1) (o + 1)
      pure (s.1 + 1, p)
    pure s.2
  let ptr ← prefixSums A.n ptr
  let iw ← loop 0 A.n iw fun i (w : Arr ℕ) => do
    let y ← ptr.rd i
    w.wr i y
  let (_, index, value) ← loop 0 A.maxnzr (iw, index, value) fun j s => do
    let a ← A.ptr.rd j
    let b ← A.ptr.rd (j + 1)
    let t ← loop a b ((0 : ℕ), s) fun i (t : ℕ × Arr ℕ × Arr ℕ × Arr R) => do
      let r ← A.row.rd t.1
      let k ← t.2.1.rd r
      let iw ← t.2.1.wr r (k + 1)
      let v ← A.value.rd i
      let value ← t.2.2.2.wr k v
      let c ← A.index.rd i
      let index ← t.2.2.1.wr k c
      pure (t.1 + 1, iw, index, value)
    pure t.2
  pure ⟨A.n, A.np, A.nnz, ptr, index, value⟩

/-- filling row `bi*bnr+i` in lis_matrix_convert_bsr2csr. src/matrix/lis_matrix_bsr.c:642-662 -/
def bsr2csrRow [Zero R] [DecidableEq R] (A : Bsr R) (bi i : ℕ) (s : ℕ × Arr ℕ × Arr R) :
    Option (ℕ × Arr ℕ × Arr R) := do
  let a ← A.bptr.rd bi
  let b ← A.bptr.rd (bi + 1)
  loop a b s fun bj s =>
    loop 0 A.bnc s fun j (s : ℕ × Arr ℕ × Arr R) => do
      let v ← A.value.rd (bj * (A.bnr * A.bnc) + j * A.bnr + i)
      if v ≠ 0 then do
        let value ← s.2.2.wr s.1 v
        let c ← A.bindex.rd bj
        let index ← s.2.1.wr s.1 (c * A.bnc + j)
        pure (s.1 + 1, index, value)
      else pure s

/-- `lis_matrix_convert_bsr2csr`. src/matrix/lis_matrix_bsr.c:555-686 -/
def bsr2csr [Zero R] [DecidableEq R] (junk : ℕ → ℕ → ℕ) (vjunk : ℕ → R) (A : Bsr R) : Option (Csr R) := do
  let ptr : Arr ℕ := .malloc (A.n + 1) (junk 0)
  let ptr ← loop 0 (A.n + 1) ptr fun i (p : Arr ℕ) => p.wr i 0
  let ptr ← loop 0 A.nr ptr fun bi p => do
    let a ← A.bptr.rd bi
    let b ← A.bptr.rd (bi + 1)
    loop a b p fun bj p =>
      loop 0 A.bnc p fun j p =>
        loop 0 A.bnr p fun i (p : Arr ℕ) => do
          let v ← A.value.rd (bj * (A.bnr * A.bnc) + j * A.bnr + i)
          if v ≠ 0 then do
            let o ← p.rd (bi * A.bnr + i + 1)
            p.wr (bi * A.bnr + i + 1) (o + 1)
          else pure p
  let ptr ← prefixSums A.n ptr
  let nnz ← ptr.rd A.n
  let index : Arr ℕ := .malloc nnz (junk 1)
  let value : Arr R := .malloc nnz vjunk
  let s ← loop 0 A.nr (index, value) fun bi s =>
    loopB 0 A.bnr s fun i (s : Arr ℕ × Arr R) =>
      if bi * A.bnr + i = A.n then pure (true, s)
      else do
        let k ← ptr.rd (bi * A.bnr + i)
        let t ← bsr2csrRow A bi i (k, s.1, s.2)
        pure (false, t.2.1, t.2.2)
  pure ⟨A.n, A.n, nnz, ptr, s.1, s.2⟩

/-- `lis_matrix_convert_bsc2csr`, one thread. src/matrix/lis_matrix_bsc.c:562-737 -/
def bsc2csr [Zero R] [DecidableEq R] (junk : ℕ → ℕ → ℕ) (vjunk : ℕ → R) (A : Bsc R) : Option (Csr R) := do
  let iw : Arr ℕ := .malloc A.n (junk 0)
  let ptr : Arr ℕ := .malloc (A.n + 1) (junk 1)
  let iw ← loop 0 A.n iw fun i (w : Arr ℕ) => w.wr i 0
  let iw ← loop 0 A.nc iw fun bj w =>
    loop 0 A.bnc w fun j w => do
      let a ← A.bptr.rd bj
      let b ← A.bptr.rd (bj + 1)
      loop a b w fun bi w =>
        loop 0 A.bnr w fun i (w : Arr ℕ) => do
          let v ← A.value.rd (bi * (A.bnr * A.bnc) + j * A.bnr + i)
          if v ≠ 0 then do
            let r ← A.bindex.rd bi
            let o ← w.rd (r * A.bnr + i)
            w.wr (r * A.bnr + i) (o + 1)
          else pure w
  let ptr ← loop 0 A.n ptr fun i (p : Arr ℕ) => do
    let x ← iw.rd i
    p.wr (i + 1) x
  let ptr ← ptr.wr 0 0
  let ptr ← prefixSums A.n ptr
  let nnz ← ptr.rd A.n
  let index : Arr ℕ := .malloc nnz (junk 2)
  let value : Arr R := .malloc nnz vjunk
  let iw ← loop 0 A.n iw fun i (w : Arr ℕ) => do
    let k ← ptr.rd i
    w.wr i k
  let (_, index, value) ← loop 0 A.nc (iw, index, value) fun bj s =>
    loopB 0 A.bnc s fun j (s : Arr ℕ × Arr ℕ × Arr R) =>
      if bj * A.bnc + j = A.n then pure (true, s)
      else do
        let a ← A.bptr.rd bj
        let b ← A.bptr.rd (bj + 1)
        let t ← loop a b s fun bi s =>
          loop 0 A.bnr s fun i (s : Arr ℕ × Arr ℕ × Arr R) => do
            let v ← A.value.rd (bi * (A.bnr * A.bnc) + j * A.bnr + i)
            if v ≠ 0 then do
              let r ← A.bindex.rd bi
              let k ← s.1.rd (r * A.bnr + i)
              let iw ← s.1.wr (r * A.bnr + i) (k + 1)
              let value ← s.2.2.wr k v
              let index ← s.2.1.wr k (bj * A.bnc + j)
              pure (iw, index, value)
            else pure s
        pure (false, t)
  pure ⟨A.n, A.n, nnz, ptr, index, value⟩

/-- number of distinct offsets: `nnd=1; k=iw[0]; for(i=1;…) if(k!=iw[i]) { k=iw[i]; nnd++; }`.
src/matrix/lis_matrix_dia.c:1229-1239 -/
def diaCount (iw : Arr ℤ) (nnz : ℕ) : Option ℕ := do
  let k ← iw.rd 0
  let s ← loop 1 nnz (k, 1) fun i (s : ℤ × ℕ) => do
    let x ← iw.rd i
    if s.1 ≠ x then pure (x, s.2 + 1) else pure s
  pure s.2

/-- the same scan, storing the distinct offsets in `index`. src/matrix/lis_matrix_dia.c:1248-1260 -/
def diaIndex (iw : Arr ℤ) (nnz : ℕ) (index : Arr ℤ) : Option (Arr ℤ) := do
  let k ← iw.rd 0
  let index ← index.wr 0 k
  let s ← loop 1 nnz (k, 1, index) fun i (s : ℤ × ℕ × Arr ℤ) => do
    let x ← iw.rd i
    if s.1 ≠ x then do
      let index ← s.2.2.wr s.2.1 x
      pure (x, s.2.1 + 1, index)
    else pure s
  pure s.2.2

/-- the search `while( jj!=index[k] ) k++;`. src/matrix/lis_matrix_dia.c:1282 -/
def diaFind (index : Arr ℤ) (jj : ℤ) (k : ℕ) : Option ℕ :=
  whileL (fun (k : ℕ) => do let o ← index.rd k; pure (decide (jj ≠ o))) (fun k => some (k + 1)) k

/-- `lis_matrix_convert_csr2dia`; the first component is the input matrix, whose rows the function sorts in
place. src/matrix/lis_matrix_dia.c:1191-1304 -/
def csr2dia [Zero R] (junk : ℕ → ℕ → ℤ) (vjunk : ℕ → R) (A : Csr R) : Option (Csr R × Dia R) := do
  let iw : Arr ℤ := .malloc A.nnz (junk 0)
  let A ← sortCsr A
  let iw ← loop 0 A.n iw fun i iw => do
    let a ← A.ptr.rd i
    let b ← A.ptr.rd (i + 1)
    loop a b iw fun j (iw : Arr ℤ) => do
      let c ← A.index.rd j
      iw.wr j ((c : ℤ) - i)
  let iw ← lisSortI 0 ((A.nnz : ℤ) - 1) iw
  let nnd ← diaCount iw A.nnz
  let index : Arr ℤ := .malloc nnd (junk 1)
  let value : Arr R := .malloc (A.n * nnd) vjunk
  let index ← diaIndex iw A.nnz index
  let value ← loop 0 (A.n * nnd) value fun i (v : Arr R) => v.wr i 0
  let value ← loop 0 A.n value fun i value => do
    let a ← A.ptr.rd i
    let b ← A.ptr.rd (i + 1)
    let s ← loop a b ((0 : ℕ), value) fun j (s : ℕ × Arr R) => do
      let c ← A.index.rd j
      let jj := (c : ℤ) - i
      let k ← diaFind index jj s.1
      let v ← A.value.rd j
      let value ← s.2.wr (k * A.n + i) v
      pure (k, value)
    pure s.2
  pure (A, ⟨A.n, nnd, index, value⟩)

/-- `lis_matrix_convert_csr2jad`, one thread. src/matrix/lis_matrix_jad.c:1591-1785; lis_matrix_malloc_jad allocates
`perm` with `n` elements and `ptr` with `maxnzr+1` (:218-262). -/
def csr2jad (junk : ℕ → ℕ → ℕ) (vjunk : ℕ → R) (A : Csr R) : Option (Jad R) := do
  let iw : Arr ℕ := .malloc A.n (junk 0)
  let (iw, maxnzr) ← loop 0 A.n (iw, 0) fun i (s : Arr ℕ × ℕ) => do
    let b ← A.ptr.rd (i + 1)
    let a ← A.ptr.rd i
    let iw ← s.1.wr i (b - a)
    pure (iw, if b - a > s.2 then b - a else s.2)
  let perm : Arr ℕ := .malloc A.n (junk 1)
  let ptr : Arr ℕ := .malloc (maxnzr + 1) (junk 2)
  let index : Arr ℕ := .malloc A.nnz (junk 3)
  let value : Arr R := .malloc A.nnz vjunk
  let ptr ← loop 0 (maxnzr + 1) ptr fun i (p : Arr ℕ) => p.wr i 0
  let (perm, ptr) ← loop 0 A.n (perm, ptr) fun i (s : Arr ℕ × Arr ℕ) => do
    let perm ← s.1.wr i i
    let m ← iw.rd i
    let ptr ← loop 0 m s.2 fun j (p : Arr ℕ) => do
      let o ← p.rd (j + 1)
      p.wr (j + 1) (o + 1)
    pure (perm, ptr)
  let (_, perm) ← lisSortrIi 0 ((A.n : ℤ) - 1) (iw, perm)
  let ptr ← ptr.wr 0 0
  let ptr ← prefixSums maxnzr ptr
  let (index, value) ← loop 0 A.n (index, value) fun i s => do
    let r ← perm.rd i
    let js ← A.ptr.rd r
    let je ← A.ptr.rd (r + 1)
    loop js je s fun j (s : Arr ℕ × Arr R) => do
      let p ← ptr.rd (j - js)
      let v ← A.value.rd j
      let value ← s.2.wr (p + i) v
      let c ← A.index.rd j
      let index ← s.1.wr (p + i) c
      pure (index, value)
  pure ⟨A.n, A.np, A.nnz, maxnzr, perm, ptr, index, value⟩

end Lis
