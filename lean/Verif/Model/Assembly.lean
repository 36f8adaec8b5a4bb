import Verif.Spec.Assembly
import Verif.Spec.Formats3

/-!
# Model of matrix assembly

src/matrix/lis_matrix.c (set_size, malloc, set_value, set_values, assemble), src/matrix/lis_matrix_rco.c
(row buffers, conversion to CSR, CSC, BSR).  Serial library.  Simplifications: allocation succeeds;
`lis_is_malloc(A)` holds (A was created); only the fields that matter for assembly are kept.  Memory
obtained from `malloc`/`realloc` holds arbitrary values (`junk`).
-/

namespace Lis
variable {R : Type}

/-- `A->status`: size not set (`LIS_MATRIX_DECIDING_SIZE`), no components (`LIS_MATRIX_NULL`),
`LIS_MATRIX_ASSEMBLING`, or a storage format. include/lis.h:252-279 -/
inductive MStatus where
  | decidingSize | null | assembling | assembled
  deriving DecidableEq

/-- fields of `LIS_MATRIX_STRUCT` used during assembly. include/lis.h:690-760.
`base` is `A->is`; a NULL row buffer is a block of size 0; `wnnz = none` is the NULL pointer. -/
structure AMat (R : Type) where
  n : ℕ
  gn : ℕ
  base : ℕ
  origin : Bool
  status : MStatus
  annz : ℕ
  wnnz : Option (Arr ℕ)
  wrow : Arr ℕ
  widx : Arr (Arr ℕ)
  wval : Arr (Arr R)

/-- return codes. include/lis.h:1054-1062 -/
inductive Err where
  | success | illArg | breakdown | outOfMemory | maxiter | notImplemented | fileIo
  deriving DecidableEq

/-- contents of fresh memory -/
structure Junk (R : Type) where
  nat : ℕ → ℕ → ℕ
  val : ℕ → ℕ → R
  natArr : ℕ → Arr ℕ
  valArr : ℕ → Arr R

/-- `lis_matrix_create` + `lis_matrix_init`: LIS_MATRIX_W_ANNZ = 10 (include/lis_matrix.h:57), origin
0, no buffers. src/matrix/lis_matrix.c:60-92, :196-236 -/
def matrixCreate (J : Junk R) : AMat R :=
  ⟨0, 0, 0, false, .decidingSize, 10, none, ⟨0, J.nat 0⟩, ⟨0, J.natArr⟩, ⟨0, J.valArr⟩⟩

/-- `lis_matrix_set_size`, serial. src/matrix/lis_matrix.c:238-307 with `lis_ranges_create`
src/system/lis_init.c:418-448: `is=0`, `n=gn=local_n`, or `global_n` when `local_n` is 0 (a nonzero
`global_n > local_n` is ignored).  NB it resets the status but keeps the assembly buffers. -/
def matrixSetSize (localN globalN : ℤ) (A : AMat R) : Err × AMat R :=
  if globalN > 0 ∧ localN > globalN then (.illArg, A)
  else if localN < 0 ∨ globalN < 0 then (.illArg, A)
  else if localN = 0 ∧ globalN = 0 then (.illArg, A)
  else
    let m := if localN = 0 then globalN.toNat else localN.toNat
    (.success, { A with status := .null, n := m, gn := m, base := 0 })

/-- `lis_matrix_malloc`. src/matrix/lis_matrix.c:957-990 -/
def matrixMalloc (J : Junk R) (nnzRow : ℕ) (nnz : Option (Arr ℕ)) (A : AMat R) :
    Option (Err × AMat R) :=
  if A.status = .assembled then some (.illArg, A) else do
    let w := A.wnnz.getD (.malloc A.n (J.nat 0))
    match nnz with
    | none =>
      let w ← loop 0 A.n w fun k w => w.wr k nnzRow
      pure (.success, { A with annz := nnzRow, wnnz := some w })
    | some nz =>
      let w ← loop 0 A.n w fun k w => do
        let v ← nz.rd k
        w.wr k v
      pure (.success, { A with wnnz := some w })

/-- `lis_matrix_malloc_rco`: row buffers of `nnz[i]` elements. src/matrix/lis_matrix_rco.c:145-217.
(`nnz[i]==0` leaves NULL = a block of size 0.) -/
def mallocRco (J : Junk R) (n : ℕ) (nnz : Arr ℕ) :
    Option (Arr ℕ × Arr (Arr ℕ) × Arr (Arr R)) := do
  let wrow : Arr ℕ := .malloc n (J.nat 1)
  let widx : Arr (Arr ℕ) := .malloc n J.natArr
  let wval : Arr (Arr R) := .malloc n J.valArr
  let p ← loop 0 n (widx, wval) fun i (p : Arr (Arr ℕ) × Arr (Arr R)) => do
    let c ← nnz.rd i
    let wi ← p.1.wr i (.malloc c (J.nat i))
    let wv ← p.2.wr i (.malloc c (J.val i))
    pure (wi, wv)
  let wrow ← loop 0 n wrow fun i r => r.wr i 0
  pure (wrow, p.1, p.2)

/-- `realloc`: the old contents, then unspecified values. src/system/lis_memory.c:161-196.  Defined
only when the block does not shrink: `lis_realloc` copies *old-size* bytes into the new block. -/
def Arr.realloc {α : Type} (a : Arr α) (m : ℕ) (junk : ℕ → α) : Option (Arr α) :=
  if a.size ≤ m then some ⟨m, fun k => if k < a.size then a.get k else junk k⟩ else none

/-- search loop `for(k=0;k<row;k++) if( idx[k]==j ) break;`, result `k`.
src/matrix/lis_matrix.c:771-774 -/
def findCol (idx : Arr ℕ) (r : ℕ) (j : ℕ) : Option ℕ :=
  loopB 0 r 0 fun k _ => do
    let v ← idx.rd k
    pure (if v = j then (true, k) else (false, k + 1))

/-- row buffers of a matrix being assembled: `w_nnz` (capacities), `w_row` (counts), `w_index`,
`w_value`. include/lis.h:735-740 -/
structure Bufs (R : Type) where
  w : Arr ℕ
  row : Arr ℕ
  idx : Arr (Arr ℕ)
  val : Arr (Arr R)

/-- `if( w_nnz[i]==w_row[i] ) { w_nnz[i] += annz; realloc }`. src/matrix/lis_matrix.c:756-770 -/
def growRow (J : Junk R) (li annz : ℕ) (B : Bufs R) : Option (Bufs R) := do
  let c ← B.w.rd li
  let r ← B.row.rd li
  if c = r then do
    let w ← B.w.wr li (c + annz)
    let wi ← B.idx.rd li
    let wi ← wi.realloc (c + annz) (J.nat li)
    let idx ← B.idx.wr li wi
    let wv ← B.val.rd li
    let wv ← wv.realloc (c + annz) (J.val li)
    let val ← B.val.wr li wv
    pure { B with w, idx, val }
  else pure B

/-- the rest of `lis_matrix_set_value`: search the row, then overwrite, add or append.
src/matrix/lis_matrix.c:771-795 -/
def putRow [Add R] (flag : ℤ) (li : ℕ) (j : ℕ) (value : R) (B : Bufs R) : Option (Bufs R) := do
  let r ← B.row.rd li
  let wi ← B.idx.rd li
  let k ← findCol wi r j
  let wv ← B.val.rd li
  if k < r then
    if flag = 0 then do
      let wv ← wv.wr k value
      let val ← B.val.wr li wv
      pure { B with val }
    else do
      let o ← wv.rd k
      let wv ← wv.wr k (o + value)
      let val ← B.val.wr li wv
      pure { B with val }
  else do
    let row ← B.row.wr li (r + 1)
    let wi ← wi.wr r j
    let idx ← B.idx.wr li wi
    let wv ← wv.wr r value
    let val ← B.val.wr li wv
    pure { B with row, idx, val }

/-- `lis_matrix_set_value`. src/matrix/lis_matrix.c:698-799.  A global row `i` below `A->is` would
be a negative C index (undefined). -/
def setValue [Add R] (J : Junk R) (flag i j : ℤ) (value : R) (A : AMat R) : Option (Err × AMat R) :=
  if A.status = .assembled then some (.illArg, A)
  else
    let i := if A.origin then i - 1 else i
    let j := if A.origin then j - 1 else j
    if i < 0 ∨ j < 0 then some (.illArg, A)
    else if i ≥ A.gn ∨ j ≥ A.gn then some (.illArg, A)
    else do
      let A ← (if A.status = .null then do
          let w ← match A.wnnz with
            | none => loop 0 A.n (.malloc A.n (J.nat 0)) fun k (w : Arr ℕ) => w.wr k A.annz
            | some w => pure w
          let (wrow, widx, wval) ← mallocRco J A.n w
          pure { A with wnnz := some w, wrow, widx, wval, status := .assembling }
        else pure A : Option (AMat R))
      let w ← A.wnnz
      if i.toNat < A.base then none
      else do
        let B ← growRow J (i.toNat - A.base) A.annz ⟨w, A.wrow, A.widx, A.wval⟩
        let B ← putRow flag (i.toNat - A.base) j.toNat value B
        pure (.success, { A with wnnz := some B.w, wrow := B.row, widx := B.idx, wval := B.val })

/-- a sequence of `lis_matrix_set_value` calls -/
def setCalls [Add R] (J : Junk R) : List (SetCall R) → AMat R → Option (AMat R)
  | [], A => some A
  | c :: cs, A => do
    let (_, A) ← setValue J c.flag c.i c.j c.value A
    setCalls J cs A

/-- `lis_matrix_set_values(flag,n,value,A)`: all positions of a dense row-major block.
src/matrix/lis_matrix.c:858-876.  NB it ignores the return codes. -/
def setValues [Add R] (J : Junk R) (flag : ℤ) (n : ℕ) (value : Arr R) (A : AMat R) :
    Option (Err × AMat R) := do
  let A ← loop 0 n A fun i A =>
    loop 0 n A fun j A => do
      let v ← value.rd (i * n + j)
      let (_, A) ← setValue J flag i j v A
      pure A
  pure (.success, A)

/-- `lis_matrix_convert_rco2csr`. src/matrix/lis_matrix_rco.c:251-317 -/
def rco2csr (J : Junk R) (A : AMat R) : Option (Csr R) := do
  let nnz ← loop 0 A.n 0 fun i nnz => do
    let r ← A.wrow.rd i
    pure (nnz + r)
  let ptr : Arr ℕ := .malloc (A.n + 1) (J.nat 0)
  let index : Arr ℕ := .malloc nnz (J.nat 1)
  let value : Arr R := .malloc nnz (J.val 0)
  let ptr ← ptr.wr 0 0
  let ptr ← loop 0 A.n ptr fun i ptr => do
    let p ← ptr.rd i
    let r ← A.wrow.rd i
    ptr.wr (i + 1) (p + r)
  let (index, value) ← loop 0 A.n (index, value) fun i (s : Arr ℕ × Arr R) => do
    let k ← ptr.rd i
    let r ← A.wrow.rd i
    loop 0 r s fun j s => do
      let wi ← A.widx.rd i
      let wv ← A.wval.rd i
      let c ← wi.rd j
      let v ← wv.rd j
      let index ← s.1.wr (k + j) c
      let value ← s.2.wr (k + j) v
      pure (index, value)
  pure ⟨A.n, A.n, nnz, ptr, index, value⟩

/-- `lis_matrix_convert_rco2csc`. src/matrix/lis_matrix_rco.c:494-580 -/
def rco2csc (J : Junk R) (A : AMat R) : Option (Csc R) := do
  let iw : Arr ℕ := .malloc A.n (J.nat 0)
  let ptr : Arr ℕ := .malloc (A.n + 1) (J.nat 1)
  let iw ← loop 0 A.n iw fun i iw => iw.wr i 0
  let iw ← loop 0 A.n iw fun i iw => do
    let r ← A.wrow.rd i
    loop 0 r iw fun j iw => do
      let wi ← A.widx.rd i
      let c ← wi.rd j
      let o ← iw.rd c
      iw.wr c (o + 1)
  let ptr ← ptr.wr 0 0
  let (ptr, iw) ← loop 0 A.n (ptr, iw) fun i (s : Arr ℕ × Arr ℕ) => do
    let p ← s.1.rd i
    let c ← s.2.rd i
    let ptr ← s.1.wr (i + 1) (p + c)
    let iw ← s.2.wr i p
    pure (ptr, iw)
  let nnz ← ptr.rd A.n
  let index : Arr ℕ := .malloc nnz (J.nat 2)
  let value : Arr R := .malloc nnz (J.val 0)
  let (_, index, value) ← loop 0 A.n (iw, index, value) fun i (s : Arr ℕ × Arr ℕ × Arr R) => do
    let r ← A.wrow.rd i
    loop 0 r s fun j s => do
      let wi ← A.widx.rd i
      let wv ← A.wval.rd i
      let k ← wi.rd j
      let l ← s.1.rd k
      let v ← wv.rd j
      let value ← s.2.2.wr l v
      let index ← s.2.1.wr l i
      let iw ← s.1.wr k (l + 1)
      pure (iw, index, value)
  pure ⟨A.n, A.n, nnz, ptr, index, value⟩

end Lis
