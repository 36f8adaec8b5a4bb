import Verif.Model.Matvec1
import Verif.Model.Convert1
import Verif.Model.Vector
import Verif.Model.Sort

/-!
# Model of the whole-matrix operations on CSR matrices

src/matrix/lis_matrix_csr.c: diagonal, shift, scaling, Frobenius norm, transpose, split, merge, sort, triangular
solves, and their dispatchers in src/matrix/lis_matrix_ops.c.  Serial default-precision code paths; the OpenMP
variant of the SSOR solve is modelled separately (`solveSsorOmp`).  `d` is the C array argument.
-/

namespace Lis
variable {R : Type}

/-- `lis_matrix_get_diagonal_csr`, unsplit. src/matrix/lis_matrix_csr.c:541-558 -/
def getDiagonalCsr [Zero R] (A : Csr R) (d : Arr R) : Option (Arr R) :=
  loop 0 A.n d fun i d => do
    let d ← d.wr i 0
    let a ← A.ptr.rd i
    let b ← A.ptr.rd (i + 1)
    loopB a b d fun j d => do
      let c ← A.index.rd j
      if i = c then do
        let v ← A.value.rd j
        let d ← d.wr i v
        pure (true, d)
      else pure (false, d)

/-- `lis_matrix_get_diagonal_csr`, split. src/matrix/lis_matrix_csr.c:532-540 -/
def getDiagonalSplitCsr (A : SplitCsr R) (d : Arr R) : Option (Arr R) :=
  loop 0 A.n d fun i d => do
    let v ← A.D.rd i
    d.wr i v

/-- `lis_matrix_shift_diagonal_csr`, unsplit. src/matrix/lis_matrix_csr.c:584-599 -/
def shiftDiagonalCsr [Sub R] (A : Csr R) (sigma : R) : Option (Csr R) := do
  let value ← loop 0 A.n A.value fun i value => do
    let a ← A.ptr.rd i
    let b ← A.ptr.rd (i + 1)
    loopB a b value fun j value => do
      let c ← A.index.rd j
      if i = c then do
        let v ← value.rd j
        let value ← value.wr j (v - sigma)
        pure (true, value)
      else pure (false, value)
  pure { A with value := value }

/-- `lis_matrix_shift_diagonal_csr`, split. src/matrix/lis_matrix_csr.c:574-583 -/
def shiftDiagonalSplitCsr [Sub R] (A : SplitCsr R) (sigma : R) : Option (SplitCsr R) := do
  let D ← loop 0 A.n A.D fun i D => do
    let v ← D.rd i
    D.wr i (v - sigma)
  pure { A with D := D }

/-- `for(j=ptr[i];j<ptr[i+1];j++) value[j] *= d[i]`. src/matrix/lis_matrix_csr.c:622-625 -/
def scaleRow [Mul R] (A : Csr R) (d : Arr R) (i : ℕ) (value : Arr R) : Option (Arr R) := do
  let a ← A.ptr.rd i
  let b ← A.ptr.rd (i + 1)
  loop a b value fun j value => do
    let v ← value.rd j
    let di ← d.rd i
    value.wr j (v * di)

/-- `lis_matrix_scale_csr`, unsplit. src/matrix/lis_matrix_csr.c:632-644 -/
def scaleCsr [Mul R] (A : Csr R) (d : Arr R) : Option (Csr R) := do
  let value ← loop 0 A.n A.value fun i value => scaleRow A d i value
  pure { A with value := value }

/-- `lis_matrix_scale_csr`, split. src/matrix/lis_matrix_csr.c:615-631 -/
def scaleSplitCsr [Mul R] [One R] (A : SplitCsr R) (d : Arr R) : Option (SplitCsr R) := do
  let (D, lv, uv) ← loop 0 A.n (A.D, A.L.value, A.U.value) fun i (s : Arr R × Arr R × Arr R) => do
    let D ← s.1.wr i 1
    let lv ← scaleRow A.L d i s.2.1
    let uv ← scaleRow A.U d i s.2.2
    pure (D, lv, uv)
  pure { A with D := D, L := { A.L with value := lv }, U := { A.U with value := uv } }

/-- `value[j] = value[j]*d[i]*d[index[j]]` over a row. src/matrix/lis_matrix_csr.c:667-670 -/
def scaleSymmRow [Mul R] (A : Csr R) (d : Arr R) (i : ℕ) (value : Arr R) : Option (Arr R) := do
  let a ← A.ptr.rd i
  let b ← A.ptr.rd (i + 1)
  loop a b value fun j value => do
    let v ← value.rd j
    let di ← d.rd i
    let c ← A.index.rd j
    let dc ← d.rd c
    value.wr j (v * di * dc)

/-- `lis_matrix_scale_symm_csr`, unsplit. src/matrix/lis_matrix_csr.c:677-689 -/
def scaleSymmCsr [Mul R] (A : Csr R) (d : Arr R) : Option (Csr R) := do
  let value ← loop 0 A.n A.value fun i value => scaleSymmRow A d i value
  pure { A with value := value }

/-- `lis_matrix_scale_symm_csr`, split. src/matrix/lis_matrix_csr.c:660-676 -/
def scaleSymmSplitCsr [Mul R] [One R] (A : SplitCsr R) (d : Arr R) : Option (SplitCsr R) := do
  let (D, lv, uv) ← loop 0 A.n (A.D, A.L.value, A.U.value) fun i (s : Arr R × Arr R × Arr R) => do
    let D ← s.1.wr i 1
    let lv ← scaleSymmRow A.L d i s.2.1
    let uv ← scaleSymmRow A.U d i s.2.2
    pure (D, lv, uv)
  pure { A with D := D, L := { A.L with value := lv }, U := { A.U with value := uv } }

/-- `for(j…) sum += value[j]*value[j]`. src/matrix/lis_matrix_csr.c:714-717 -/
def sqRow [Add R] [Mul R] (A : Csr R) (i : ℕ) (sum : R) : Option R := do
  let a ← A.ptr.rd i
  let b ← A.ptr.rd (i + 1)
  loop a b sum fun j sum => do
    let v ← A.value.rd j
    let w ← A.value.rd j
    pure (sum + v * w)

/-- `lis_matrix_normf_csr`, unsplit; `sqrt` is a parameter. src/matrix/lis_matrix_csr.c:725-738 -/
def normfCsr [Add R] [Mul R] [Zero R] (sqrt : R → R) (A : Csr R) : Option R := do
  let sum ← loop 0 A.n 0 fun i sum => sqRow A i sum
  pure (sqrt sum)

/-- `lis_matrix_normf_csr`, split. src/matrix/lis_matrix_csr.c:707-724,738 -/
def normfSplitCsr [Add R] [Mul R] [Zero R] (sqrt : R → R) (A : SplitCsr R) : Option R := do
  let sum ← loop 0 A.n 0 fun i (sum : R) => do
    let v ← A.D.rd i
    let w ← A.D.rd i
    let sum ← sqRow A.L i (sum + v * w)
    sqRow A.U i sum
  pure (sqrt sum)

/-- `lis_matrix_transpose_csr`: csr2csc, relabelled as CSR.  `Aout` keeps its own `n`, `np`, which the caller
sets up equal to those of `Ain` (square matrix): here the arrays are read with rows = `np`.
src/matrix/lis_matrix_csr.c:745-761 -/
def transposeCsr (junk : ℕ → ℕ → ℕ) (vjunk : ℕ → R) (A : Csr R) : Option (Csr R) := do
  let B ← csr2csc junk vjunk A
  pure ⟨B.np, B.n, B.nnz, B.ptr, B.index, B.value⟩

/-- counting pass of `lis_matrix_split_csr`. src/matrix/lis_matrix_csr.c:835-848 -/
def splitCountCsr (A : Csr R) : Option (ℕ × ℕ) :=
  loop 0 A.n (0, 0) fun i (s : ℕ × ℕ) => do
    let a ← A.ptr.rd i
    let b ← A.ptr.rd (i + 1)
    loop a b s fun j s => do
      let c ← A.index.rd j
      if c < i then pure (s.1 + 1, s.2)
      else if c > i then pure (s.1, s.2 + 1)
      else pure s

/-- state of the filling pass: `(nnzl, lindex, lvalue)`, `(nnzu, uindex, uvalue)`, `D` -/
abbrev SplitSt (R : Type) := (ℕ × Arr ℕ × Arr R) × (ℕ × Arr ℕ × Arr R) × Arr R

/-- one row of the filling pass. src/matrix/lis_matrix_csr.c:913-931 -/
def splitRowCsr (A : Csr R) (i : ℕ) (s : SplitSt R) : Option (SplitSt R) := do
  let a ← A.ptr.rd i
  let b ← A.ptr.rd (i + 1)
  loop a b s fun j s => do
    let c ← A.index.rd j
    let v ← A.value.rd j
    if c < i then do
      let ix ← s.1.2.1.wr s.1.1 c
      let vl ← s.1.2.2.wr s.1.1 v
      pure ((s.1.1 + 1, ix, vl), s.2)
    else if c > i then do
      let ix ← s.2.1.2.1.wr s.2.1.1 c
      let vl ← s.2.1.2.2.wr s.2.1.1 v
      pure (s.1, (s.2.1.1 + 1, ix, vl), s.2.2)
    else do
      let D ← s.2.2.wr i v
      pure (s.1, s.2.1, D)

/-- `lis_matrix_split_csr`, serial.  `D` comes from `lis_matrix_diag_duplicateM` (lis_matrix_diag.c:338-447),
which allocates `np` elements for scalar formats and does not initialise them (`djunk`).
src/matrix/lis_matrix_csr.c:765-949 -/
def splitCsr (junk : ℕ → ℕ → ℕ) (vjunk : ℕ → ℕ → R) (djunk : ℕ → R) (A : Csr R) : Option (SplitCsr R) := do
  let (nnzl, nnzu) ← splitCountCsr A
  let lptr : Arr ℕ := .malloc (A.n + 1) (junk 0)
  let lindex : Arr ℕ := .malloc nnzl (junk 1)
  let lvalue : Arr R := .malloc nnzl (vjunk 0)
  let uptr : Arr ℕ := .malloc (A.n + 1) (junk 2)
  let uindex : Arr ℕ := .malloc nnzu (junk 3)
  let uvalue : Arr R := .malloc nnzu (vjunk 1)
  let D : Arr R := .malloc A.np djunk
  let lptr ← lptr.wr 0 0
  let uptr ← uptr.wr 0 0
  let ((lptr, uptr), s) ← loop 0 A.n ((lptr, uptr), (((0, lindex, lvalue), (0, uindex, uvalue), D) : SplitSt R))
    fun i (p : (Arr ℕ × Arr ℕ) × SplitSt R) => do
      let s ← splitRowCsr A i p.2
      let lptr ← p.1.1.wr (i + 1) s.1.1
      let uptr ← p.1.2.wr (i + 1) s.2.1.1
      pure ((lptr, uptr), s)
  pure ⟨A.n, A.np, s.2.2, ⟨A.n, A.np, s.1.1, lptr, s.1.2.1, s.1.2.2⟩, ⟨A.n, A.np, s.2.1.1, uptr, s.2.1.2.1, s.2.1.2.2⟩⟩

/-- copying one row of `B` to the end of the merged arrays. src/matrix/lis_matrix_csr.c:1286-1291 -/
def mergeRow (B : Csr R) (i : ℕ) (s : ℕ × Arr ℕ × Arr R) : Option (ℕ × Arr ℕ × Arr R) := do
  let a ← B.ptr.rd i
  let b ← B.ptr.rd (i + 1)
  loop a b s fun j s => do
    let c ← B.index.rd j
    let v ← B.value.rd j
    let ix ← s.2.1.wr s.1 c
    let vl ← s.2.2.wr s.1 v
    pure (s.1 + 1, ix, vl)

/-- `lis_matrix_merge_csr`. src/matrix/lis_matrix_csr.c:1258-1311 -/
def mergeCsr (junk : ℕ → ℕ → ℕ) (vjunk : ℕ → R) (A : SplitCsr R) : Option (Csr R) := do
  let nnz := A.L.nnz + A.U.nnz + A.n
  let ptr : Arr ℕ := .malloc (A.n + 1) (junk 0)
  let index : Arr ℕ := .malloc nnz (junk 1)
  let value : Arr R := .malloc nnz vjunk
  let ptr ← ptr.wr 0 0
  let (ptr, s) ← loop 0 A.n (ptr, (0, index, value)) fun i (p : Arr ℕ × (ℕ × Arr ℕ × Arr R)) => do
    let s ← mergeRow A.L i p.2
    let v ← A.D.rd i
    let ix ← s.2.1.wr s.1 i
    let vl ← s.2.2.wr s.1 v
    let s ← mergeRow A.U i (s.1 + 1, ix, vl)
    let ptr ← p.1.wr (i + 1) s.1
    pure (ptr, s)
  pure ⟨A.n, A.np, s.1, ptr, s.2.1, s.2.2⟩

/-- `lis_matrix_sort_csr`, unsplit, not yet sorted. src/matrix/lis_matrix_csr.c:1506-1515 -/
def sortCsr (A : Csr R) : Option (Csr R) := do
  let (index, value) ← loop 0 A.n (A.index, A.value) fun i (s : Arr ℕ × Arr R) => do
    let a ← A.ptr.rd i
    let b ← A.ptr.rd (i + 1)
    lisSortId (a : ℤ) ((b : ℤ) - 1) s
  pure { A with index := index, value := value }

/-! ### triangular solves -/

/-- `for(j…) t -= value[j]*x[index[j]]`. src/matrix/lis_matrix_csr.c:1554-1557 -/
def subRow [Sub R] [Mul R] (A : Csr R) (x i : ℕ) (h : Vecs R) (t : R) : Option R := do
  let a ← A.ptr.rd i
  let b ← A.ptr.rd (i + 1)
  loop a b t fun j t => do
    let v ← A.value.rd j
    let c ← A.index.rd j
    let xc ← vrd h x c
    pure (t - v * xc)

/-- one row of a substitution. src/matrix/lis_matrix_csr.c:1553-1558 -/
def solveRow [Sub R] [Mul R] (A : Csr R) (wd : Arr R) (b x i : ℕ) (h : Vecs R) : Option (Vecs R) := do
  let t ← vrd h b i
  let t ← subRow A x i h t
  let w ← wd.rd i
  vwr h x i (t * w)

/-- `lis_matrix_solve_csr`, `LIS_MATRIX_LOWER`. src/matrix/lis_matrix_csr.c:1550-1560 -/
def solveLowerCsr [Sub R] [Mul R] (A : SplitCsr R) (wd : Arr R) (b x : ℕ) (h : Vecs R) : Option (Vecs R) :=
  loop 0 A.n h fun i h => solveRow A.L wd b x i h

/-- `lis_matrix_solve_csr`, `LIS_MATRIX_UPPER`. src/matrix/lis_matrix_csr.c:1561-1571 -/
def solveUpperCsr [Sub R] [Mul R] (A : SplitCsr R) (wd : Arr R) (b x : ℕ) (h : Vecs R) : Option (Vecs R) :=
  loopDown 0 A.n h fun i h => solveRow A.U wd b x i h

/-- `t = 0.0; for(j…) { if (index[j]>=n) continue; t += value[j]*x[index[j]]; }`.
src/matrix/lis_matrix_csr.c:1620-1625 -/
def ssorAcc [Add R] [Mul R] [Zero R] (A : Csr R) (n x i : ℕ) (h : Vecs R) : Option R := do
  let a ← A.ptr.rd i
  let b ← A.ptr.rd (i + 1)
  loop a b 0 fun j (t : R) => do
    let c ← A.index.rd j
    if c ≥ n then pure t else do
      let v ← A.value.rd j
      let xc ← vrd h x c
      pure (t + v * xc)

/-- `lis_matrix_solve_csr`, `LIS_MATRIX_SSOR`, serial. src/matrix/lis_matrix_csr.c:1608-1627 -/
def solveSsorCsr [Add R] [Sub R] [Mul R] [Zero R] (A : SplitCsr R) (wd : Arr R) (b x : ℕ) (h : Vecs R) :
    Option (Vecs R) := do
  let h ← loop 0 A.n h fun i h => solveRow A.L wd b x i h
  loopDown 0 A.n h fun i h => do
    let t ← ssorAcc A.U A.n x i h
    let xi ← vrd h x i
    let w ← wd.rd i
    vwr h x i (xi - t * w)

/-- `for(j…) x[index[j]] -= conj(value[j])*t`. src/matrix/lis_matrix_csr.c:1788-1791; `t` is re-read from `x[i]`
there, which no iteration changes when row `i` does not contain column `i`; modelled with the re-read. -/
def scatterRowH [Sub R] [Mul R] (conj : R → R) (A : Csr R) (x i : ℕ) (h : Vecs R) : Option (Vecs R) := do
  let a ← A.ptr.rd i
  let b ← A.ptr.rd (i + 1)
  loop a b h fun j h => do
    let v ← A.value.rd j
    let c ← A.index.rd j
    let xc ← vrd h x c
    let t ← vrd h x i
    vwr h x c (xc - conj v * t)

/-- as `scatterRowH` with a local `t`. src/matrix/lis_matrix_csr.c:1838-1841,1847-1850 -/
def scatterRowT [Sub R] [Mul R] (conj : R → R) (A : Csr R) (x i : ℕ) (t : R) (h : Vecs R) : Option (Vecs R) := do
  let a ← A.ptr.rd i
  let b ← A.ptr.rd (i + 1)
  loop a b h fun j h => do
    let v ← A.value.rd j
    let c ← A.index.rd j
    let xc ← vrd h x c
    vwr h x c (xc - conj v * t)

/-- `lis_matrix_solveh_csr`, `LIS_MATRIX_LOWER`. src/matrix/lis_matrix_csr.c:1770-1793
(the return code of lis_vector_copy is ignored, as in the C code) -/
def solvehLowerCsr [Sub R] [Mul R] (conj : R → R) (A : SplitCsr R) (wd : Arr R) (b x : ℕ) (h : Vecs R) :
    Option (Vecs R) := do
  let (_, h) ← vectorCopy b x h
  loop 0 A.n h fun i h => do
    let xi ← vrd h x i
    let w ← wd.rd i
    let h ← vwr h x i (xi * conj w)
    scatterRowH conj A.U x i h

/-- `lis_matrix_solveh_csr`, `LIS_MATRIX_UPPER`. src/matrix/lis_matrix_csr.c:1794-1803 -/
def solvehUpperCsr [Sub R] [Mul R] (conj : R → R) (A : SplitCsr R) (wd : Arr R) (b x : ℕ) (h : Vecs R) :
    Option (Vecs R) := do
  let (_, h) ← vectorCopy b x h
  loopDown 0 A.n h fun i h => do
    let xi ← vrd h x i
    let w ← wd.rd i
    let h ← vwr h x i (xi * conj w)
    scatterRowH conj A.L x i h

/-- `lis_matrix_solveh_csr`, `LIS_MATRIX_SSOR`, serial. src/matrix/lis_matrix_csr.c:1834-1852 -/
def solvehSsorCsr [Sub R] [Mul R] (conj : R → R) (A : SplitCsr R) (wd : Arr R) (b x : ℕ) (h : Vecs R) :
    Option (Vecs R) := do
  let (_, h) ← vectorCopy b x h
  let h ← loop 0 A.n h fun i h => do
    let xi ← vrd h x i
    let w ← wd.rd i
    scatterRowT conj A.U x i (xi * conj w) h
  loopDown 0 A.n h fun i h => do
    let xi ← vrd h x i
    let w ← wd.rd i
    let h ← vwr h x i (xi * conj w)
    scatterRowT conj A.L x i (xi * conj w) h

/-! ### lis_matrix_scale -/

/-- `lis_matrix_scale`, `LIS_SCALE_JACOBI`, CSR, serial: returns the matrix, the new `b` and `d`.
src/matrix/lis_matrix_ops.c:579-716 (the default: branches of other formats not modelled here). -/
def matrixScaleJacobi [Zero R] [Mul R] (inv : R → R) (A : Csr R) (b d : Arr R) :
    Option (Csr R × Arr R × Arr R) := do
  let d ← getDiagonalCsr A d
  let d ← loop 0 A.n d fun i d => do
    let v ← d.rd i
    d.wr i (inv v)
  let A' ← scaleCsr A d
  let b ← loop 0 A.n b fun i b => do
    let v ← b.rd i
    let w ← d.rd i
    b.wr i (v * w)
  pure (A', b, d)

/-- `lis_matrix_scale`, `LIS_SCALE_SYMM_DIAG`, CSR, serial (`np = n`); `rsq v` stands for `1.0/sqrt(fabs(v))`.
src/matrix/lis_matrix_ops.c:579-716 -/
def matrixScaleSymm [Zero R] [Mul R] (rsq : R → R) (A : Csr R) (b d : Arr R) :
    Option (Csr R × Arr R × Arr R) := do
  let d ← getDiagonalCsr A d
  let d ← loop 0 A.np d fun i d => do
    let v ← d.rd i
    d.wr i (rsq v)
  let A' ← scaleSymmCsr A d
  let b ← loop 0 A.n b fun i b => do
    let v ← b.rd i
    let w ← d.rd i
    b.wr i (v * w)
  pure (A', b, d)

/-- as `matrixScaleJacobi` for a split matrix -/
def matrixScaleJacobiSplit [Mul R] [One R] (inv : R → R) (A : SplitCsr R) (b d : Arr R) :
    Option (SplitCsr R × Arr R × Arr R) := do
  let d ← getDiagonalSplitCsr A d
  let d ← loop 0 A.n d fun i d => do
    let v ← d.rd i
    d.wr i (inv v)
  let A' ← scaleSplitCsr A d
  let b ← loop 0 A.n b fun i b => do
    let v ← b.rd i
    let w ← d.rd i
    b.wr i (v * w)
  pure (A', b, d)

/-- as `matrixScaleSymm` for a split matrix -/
def matrixScaleSymmSplit [Mul R] [One R] (rsq : R → R) (A : SplitCsr R) (b d : Arr R) :
    Option (SplitCsr R × Arr R × Arr R) := do
  let d ← getDiagonalSplitCsr A d
  let d ← loop 0 A.np d fun i d => do
    let v ← d.rd i
    d.wr i (rsq v)
  let A' ← scaleSymmSplitCsr A d
  let b ← loop 0 A.n b fun i b => do
    let v ← b.rd i
    let w ← d.rd i
    b.wr i (v * w)
  pure (A', b, d)

/-- OpenMP SSOR of `lis_matrix_solve_csr`, one thread working on rows `[is,ie)`.
src/matrix/lis_matrix_csr.c:1584-1605 -/
def ssorThread [Add R] [Sub R] [Mul R] [Zero R] (A : SplitCsr R) (wd : Arr R) (b x is ie : ℕ) (h : Vecs R) :
    Option (Vecs R) := do
  let h ← loop is ie h fun i h => do
    let t ← vrd h b i
    let lo ← A.L.ptr.rd i
    let hi ← A.L.ptr.rd (i + 1)
    let t ← loop lo hi t fun j t => do
      let jj ← A.L.index.rd j
      if jj < is then pure t else do
        let v ← A.L.value.rd j
        let xj ← vrd h x jj
        pure (t - v * xj)
    let w ← wd.rd i
    vwr h x i (t * w)
  loopDown is ie h fun i h => do
    let lo ← A.U.ptr.rd i
    let hi ← A.U.ptr.rd (i + 1)
    let t ← loop lo hi 0 fun j (t : R) => do
      let jj ← A.U.index.rd j
      if jj < is ∨ jj ≥ ie then pure t else do
        let v ← A.U.value.rd j
        let xj ← vrd h x jj
        pure (t + v * xj)
    let xi ← vrd h x i
    let w ← wd.rd i
    vwr h x i (xi - t * w)

end Lis
