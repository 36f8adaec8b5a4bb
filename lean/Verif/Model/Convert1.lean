import Verif.Spec.Formats

/-!
# Model of the conversions between CSR and CSC, MSR, ELL, COO, DNS

Serial code (`#else` branches of `#ifdef _OPENMP`, where `LIS_GET_ISIE` gives `is=0`, `ie=n`).
`junk k` / `vjunk` are the unspecified contents of freshly allocated arrays.  The final
`lis_matrix_set_xxx`/`lis_matrix_assemble` only store the pointers and are not modelled.
-/

namespace Lis
variable {R : Type}

/-- counting and scattering of a compressed matrix by its inner index: `m` lines in, `k` lines out.
The loops of lis_matrix_convert_csr2csc (src/matrix/lis_matrix_csc.c:1041-1067; `m=n`, `k=np`,
`iw` of `iwsz = np+1` elements, all zeroed) and of lis_matrix_convert_csc2csr (:1213-1240; `m=np`, `k=n`,
`iw` of `n+1`, the first `n` zeroed). -/
def transposeArrays (m k nnz iwsz : ℕ) (junk : ℕ → ℕ → ℕ) (vjunk : ℕ → R) (zeroed : ℕ)
    (aptr aindex : Arr ℕ) (avalue : Arr R) : Option (Arr ℕ × Arr ℕ × Arr R) := do
  let ptr : Arr ℕ := .malloc (k + 1) (junk 0)
  let index : Arr ℕ := .malloc nnz (junk 1)
  let value : Arr R := .malloc nnz vjunk
  let iw ← loop 0 zeroed (.malloc iwsz (junk 2)) fun i (w : Arr ℕ) => w.wr i 0
  let iw ← loop 0 m iw fun i w => do
    let a ← aptr.rd i
    let b ← aptr.rd (i + 1)
    loop a b w fun j w => do
      let jj ← aindex.rd j
      let o ← w.rd jj
      w.wr jj (o + 1)
  let ptr ← ptr.wr 0 0
  let (ptr, iw) ← loop 0 k (ptr, iw) fun i (s : Arr ℕ × Arr ℕ) => do
    let p ← s.1.rd i
    let c ← s.2.rd i
    let ptr ← s.1.wr (i + 1) (p + c)
    let iw ← s.2.wr i p
    pure (ptr, iw)
  let (_, index, value) ← loop 0 m (iw, index, value) fun i (s : Arr ℕ × Arr ℕ × Arr R) => do
    let a ← aptr.rd i
    let b ← aptr.rd (i + 1)
    loop a b s fun j s => do
      let k ← aindex.rd j
      let l ← s.1.rd k
      let v ← avalue.rd j
      let value ← s.2.2.wr l v
      let index ← s.2.1.wr l i
      let iw ← s.1.wr k (l + 1)
      pure (iw, index, value)
  pure (ptr, index, value)

/-- `lis_matrix_convert_csr2csc`. src/matrix/lis_matrix_csc.c:903-1086 -/
def csr2csc (junk : ℕ → ℕ → ℕ) (vjunk : ℕ → R) (A : Csr R) : Option (Csc R) := do
  let (ptr, index, value) ← transposeArrays A.n A.np A.nnz (A.np + 1) junk vjunk (A.np + 1) A.ptr A.index A.value
  pure ⟨A.n, A.np, A.nnz, ptr, index, value⟩

/-- `lis_matrix_convert_csc2csr`. src/matrix/lis_matrix_csc.c:1090-1259 -/
def csc2csr (junk : ℕ → ℕ → ℕ) (vjunk : ℕ → R) (A : Csc R) : Option (Csr R) := do
  let (ptr, index, value) ← transposeArrays A.np A.n A.nnz (A.n + 1) junk vjunk A.n A.ptr A.index A.value
  pure ⟨A.n, A.np, A.nnz, ptr, index, value⟩

/-- `iw[i+1]` of lis_matrix_convert_csr2msr: 1 if row `i` stores its diagonal, else 0.
src/matrix/lis_matrix_msr.c:1011-1025 -/
def msrDiagCount (A : Csr R) (iw : Arr ℕ) : Option (Arr ℕ) :=
  loop 0 A.n iw fun i iw => do
    let iw ← iw.wr (i + 1) 0
    let a ← A.ptr.rd i
    let b ← A.ptr.rd (i + 1)
    loop a b iw fun j iw => do
      let c ← A.index.rd j
      if i = c then iw.wr (i + 1) 1 else pure iw

/-- `lis_matrix_convert_csr2msr`. src/matrix/lis_matrix_msr.c:981-1111.  Returns the matrix and `ndz`.
(`ptr[i+1]-ptr[i]-iw[i+1]` and `n-count` are natural subtractions: the subtrahend is never larger.) -/
def csr2msr (junk : ℕ → ℕ → ℕ) (vjunk : ℕ → R) (A : Csr R) : Option (Msr R × ℕ) := do
  let iw ← loop 0 (A.n + 1) (.malloc (A.n + 1) (junk 0)) fun i (w : Arr ℕ) => w.wr i 0
  let iw ← msrDiagCount A iw
  let count ← loop 0 A.n 0 fun i (c : ℕ) => do
    let d ← iw.rd (i + 1)
    pure (c + d)
  let iw ← loop 0 A.n iw fun i iw => do
    let a ← A.ptr.rd i
    let b ← A.ptr.rd (i + 1)
    let d ← iw.rd (i + 1)
    iw.wr (i + 1) (b - a - d)
  let ndz := A.n - count
  let index : Arr ℕ := .malloc (A.nnz + ndz + 1) (junk 1)
  let value : Arr R := .malloc (A.nnz + ndz + 1) vjunk
  let iw ← iw.wr 0 (A.n + 1)
  let iw ← loop 0 A.n iw fun i iw => do
    let x ← iw.rd (i + 1)
    let y ← iw.rd i
    iw.wr (i + 1) (x + y)
  let index ← loop 0 (A.n + 1) index fun i index => do
    let x ← iw.rd i
    index.wr i x
  let (index, value) ← loop 0 A.n (index, value) fun i (s : Arr ℕ × Arr R) => do
    let k ← s.1.rd i
    let a ← A.ptr.rd i
    let b ← A.ptr.rd (i + 1)
    let s ← loop a b (k, s.1, s.2) fun j (s : ℕ × Arr ℕ × Arr R) => do
      let jj ← A.index.rd j
      let v ← A.value.rd j
      if jj = i then do
        let value ← s.2.2.wr i v
        pure (s.1, s.2.1, value)
      else do
        let value ← s.2.2.wr s.1 v
        let index ← s.2.1.wr s.1 jj
        pure (s.1 + 1, index, value)
    pure (s.2.1, s.2.2)
  pure (⟨A.n, A.nnz - count, index, value⟩, ndz)

/-- `lis_matrix_convert_msr2csr`; `nnz` is the field `A->nnz` (number of stored elements, diagonal
included). src/matrix/lis_matrix_msr.c:1114-1190 -/
def msr2csr [Zero R] [DecidableEq R] (junk : ℕ → ℕ → ℕ) (vjunk : ℕ → R) (nnz : ℕ) (A : Msr R) : Option (Csr R) := do
  let ptr : Arr ℕ := .malloc (A.n + 1) (junk 0)
  let index : Arr ℕ := .malloc nnz (junk 1)
  let value : Arr R := .malloc nnz vjunk
  let ptr ← loop 0 A.n ptr fun i ptr => do
    let b ← A.index.rd (i + 1)
    let a ← A.index.rd i
    let ptr ← ptr.wr (i + 1) (b - a)
    let d ← A.value.rd i
    if d ≠ 0 then do
      let x ← ptr.rd (i + 1)
      ptr.wr (i + 1) (x + 1)
    else pure ptr
  let ptr ← ptr.wr 0 0
  let ptr ← loop 0 A.n ptr fun i ptr => do
    let x ← ptr.rd (i + 1)
    let y ← ptr.rd i
    ptr.wr (i + 1) (x + y)
  let (index, value) ← loop 0 A.n (index, value) fun i (s : Arr ℕ × Arr R) => do
    let k ← ptr.rd i
    let d ← A.value.rd i
    let s ← (if d ≠ 0 then do
        let value ← s.2.wr k d
        let index ← s.1.wr k i
        pure (k + 1, index, value)
      else pure (k, s.1, s.2) : Option (ℕ × Arr ℕ × Arr R))
    let a ← A.index.rd i
    let b ← A.index.rd (i + 1)
    let s ← loop a b s fun j (s : ℕ × Arr ℕ × Arr R) => do
      let v ← A.value.rd j
      let value ← s.2.2.wr s.1 v
      let c ← A.index.rd j
      let index ← s.2.1.wr s.1 c
      pure (s.1 + 1, index, value)
    pure (s.2.1, s.2.2)
  pure ⟨A.n, A.n, nnz, ptr, index, value⟩

/-- longest row. src/matrix/lis_matrix_ell.c:1005-1010 -/
def ellMaxnzr (A : Csr R) : Option ℕ :=
  loop 0 A.n 0 fun i (m : ℕ) => do
    let b ← A.ptr.rd (i + 1)
    let a ← A.ptr.rd i
    pure (if b - a > m then b - a else m)

/-- `lis_matrix_convert_csr2ell`. src/matrix/lis_matrix_ell.c:957-1070 -/
def csr2ell [Zero R] (junk : ℕ → ℕ → ℕ) (vjunk : ℕ → R) (A : Csr R) : Option (Ell R) := do
  let maxnzr ← ellMaxnzr A
  let index : Arr ℕ := .malloc (A.n * maxnzr) (junk 0)
  let value : Arr R := .malloc (A.n * maxnzr) vjunk
  let s ← loop 0 maxnzr (index, value) fun j (s : Arr ℕ × Arr R) =>
    loop 0 A.n s fun i s => do
      let value ← s.2.wr (j * A.n + i) 0
      let index ← s.1.wr (j * A.n + i) i
      pure (index, value)
  let s ← loop 0 A.n s fun i (s : Arr ℕ × Arr R) => do
    let a ← A.ptr.rd i
    let b ← A.ptr.rd (i + 1)
    let s ← loop a b (0, s.1, s.2) fun j (s : ℕ × Arr ℕ × Arr R) => do
      let v ← A.value.rd j
      let value ← s.2.2.wr (s.1 * A.n + i) v
      let c ← A.index.rd j
      let index ← s.2.1.wr (s.1 * A.n + i) c
      pure (s.1 + 1, index, value)
    pure (s.2.1, s.2.2)
  pure ⟨A.n, maxnzr, s.1, s.2⟩

/-- `lis_matrix_convert_ell2csr`. src/matrix/lis_matrix_ell.c:1073-1217 -/
def ell2csr [Zero R] [DecidableEq R] (junk : ℕ → ℕ → ℕ) (vjunk : ℕ → R) (A : Ell R) : Option (Csr R) := do
  let iw : Arr ℕ := .malloc A.n (junk 0)
  let ptr : Arr ℕ := .malloc (A.n + 1) (junk 1)
  let iw ← loop 0 A.n iw fun i (w : Arr ℕ) => w.wr i 0
  let iw ← loop 0 A.maxnzr iw fun j iw =>
    loop 0 A.n iw fun i (iw : Arr ℕ) => do
      let v ← A.value.rd (j * A.n + i)
      if v ≠ 0 then do
        let o ← iw.rd i
        iw.wr i (o + 1)
      else pure iw
  let ptr ← loop 0 (A.n + 1) ptr fun i (p : Arr ℕ) => p.wr i 0
  let ptr ← loop 0 A.n ptr fun i ptr => do
    let y ← ptr.rd i
    let x ← iw.rd i
    ptr.wr (i + 1) (y + x)
  let iw ← loop 0 A.n iw fun i iw => do
    let y ← ptr.rd i
    iw.wr i y
  let nnz ← ptr.rd A.n
  let index : Arr ℕ := .malloc nnz (junk 2)
  let value : Arr R := .malloc nnz vjunk
  let (_, index, value) ← loop 0 A.maxnzr (iw, index, value) fun j s =>
    loop 0 A.n s fun i (s : Arr ℕ × Arr ℕ × Arr R) => do
      let v ← A.value.rd (j * A.n + i)
      if v ≠ 0 then do
        let k ← s.1.rd i
        let iw ← s.1.wr i (k + 1)
        let value ← s.2.2.wr k v
        let c ← A.index.rd (j * A.n + i)
        let index ← s.2.1.wr k c
        pure (iw, index, value)
      else pure s
  pure ⟨A.n, A.n, nnz, ptr, index, value⟩

/-- `lis_matrix_convert_csr2coo`. src/matrix/lis_matrix_coo.c:728-780 -/
def csr2coo (junk : ℕ → ℕ → ℕ) (vjunk : ℕ → R) (A : Csr R) : Option (Coo R) := do
  let row : Arr ℕ := .malloc A.nnz (junk 0)
  let col : Arr ℕ := .malloc A.nnz (junk 1)
  let value : Arr R := .malloc A.nnz vjunk
  let s ← loop 0 A.n (0, row, col, value) fun i s => do
    let a ← A.ptr.rd i
    let b ← A.ptr.rd (i + 1)
    loop a b s fun j (s : ℕ × Arr ℕ × Arr ℕ × Arr R) => do
      let row ← s.2.1.wr s.1 i
      let c ← A.index.rd j
      let col ← s.2.2.1.wr s.1 c
      let v ← A.value.rd j
      let value ← s.2.2.2.wr s.1 v
      pure (s.1 + 1, row, col, value)
  pure ⟨A.n, A.nnz, s.2.1, s.2.2.1, s.2.2.2⟩

/-- `lis_matrix_convert_csr2dns`. src/matrix/lis_matrix_dns.c:744-815 -/
def csr2dns [Zero R] (vjunk : ℕ → R) (A : Csr R) : Option (Dns R) := do
  let value : Arr R := .malloc (A.n * A.np) vjunk
  let value ← loop 0 A.np value fun j value =>
    loop 0 A.n value fun i (value : Arr R) => value.wr (j * A.n + i) 0
  let value ← loop 0 A.n value fun i value => do
    let a ← A.ptr.rd i
    let b ← A.ptr.rd (i + 1)
    loop a b value fun j (value : Arr R) => do
      let c ← A.index.rd j
      let v ← A.value.rd j
      value.wr (i + A.n * c) v
  pure ⟨A.n, A.np, value⟩

/-- `lis_matrix_convert_dns2csr`. src/matrix/lis_matrix_dns.c:818-912 -/
def dns2csr [Zero R] [DecidableEq R] (junk : ℕ → ℕ → ℕ) (vjunk : ℕ → R) (A : Dns R) : Option (Csr R) := do
  let ptr : Arr ℕ := .malloc (A.n + 1) (junk 0)
  let ptr ← loop 0 A.n ptr fun i (ptr : Arr ℕ) => do
    let ptr ← ptr.wr (i + 1) 0
    loop 0 A.np ptr fun j ptr => do
      let v ← A.value.rd (j * A.n + i)
      if v ≠ 0 then do
        let o ← ptr.rd (i + 1)
        ptr.wr (i + 1) (o + 1)
      else pure ptr
  let ptr ← ptr.wr 0 0
  let ptr ← loop 0 A.n ptr fun i ptr => do
    let x ← ptr.rd (i + 1)
    let y ← ptr.rd i
    ptr.wr (i + 1) (x + y)
  let nnz ← ptr.rd A.n
  let index : Arr ℕ := .malloc nnz (junk 1)
  let value : Arr R := .malloc nnz vjunk
  let (index, value) ← loop 0 A.n (index, value) fun i (s : Arr ℕ × Arr R) => do
    let k ← ptr.rd i
    let s ← loop 0 A.np (k, s.1, s.2) fun j (s : ℕ × Arr ℕ × Arr R) => do
      let v ← A.value.rd (j * A.n + i)
      if v ≠ 0 then do
        let value ← s.2.2.wr s.1 v
        let index ← s.2.1.wr s.1 j
        pure (s.1 + 1, index, value)
      else pure s
    pure (s.2.1, s.2.2)
  pure ⟨A.n, A.np, nnz, ptr, index, value⟩

end Lis
