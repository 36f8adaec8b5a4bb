import Verif.Model.CsrOps
import Verif.Spec.Formats4

/-!
# Triangular solves with split CSC and MSR matrices (src/matrix/lis_matrix_csc.c:778-902, lis_matrix_msr.c:855-979)

The loops over stored elements are the statements of the CSR code on other arrays (`Csc.cols`, `Msr.raw`).
-/

namespace Lis
variable {R : Type}

/-- the arrays of a CSC matrix, read as rows of the transposed matrix -/
def Csc.cols (A : Csc R) : Csr R := ⟨A.np, A.n, A.nnz, A.ptr, A.index, A.value⟩

/-- the arrays of an MSR matrix: `index` also holds the row pointers -/
def Msr.raw (A : Msr R) : Csr R := ⟨A.n, A.n, A.n + 1 + A.nnz, A.index, A.index, A.value⟩

section csc
variable [Zero R] [Add R] [Sub R] [Mul R]

/-- `lis_matrix_solve_csc`, `LIS_MATRIX_LOWER`. src/matrix/lis_matrix_csc.c:790-801 -/
def solveLowerCsc (A : SplitCsc R) (wd : Arr R) (b x : ℕ) (h : Vecs R) : Option (Vecs R) := do
  let (_, h) ← vectorCopy b x h
  loop 0 A.np h fun i h => do
    let xi ← vrd h x i
    let w ← wd.rd i
    let h ← vwr h x i (xi * w)
    scatterRowH id A.L.cols x i h

/-- `lis_matrix_solve_csc`, `LIS_MATRIX_UPPER`. src/matrix/lis_matrix_csc.c:802-811 -/
def solveUpperCsc (A : SplitCsc R) (wd : Arr R) (b x : ℕ) (h : Vecs R) : Option (Vecs R) := do
  let (_, h) ← vectorCopy b x h
  loopDown 0 A.n h fun i h => do
    let xi ← vrd h x i
    let w ← wd.rd i
    let h ← vwr h x i (xi * w)
    scatterRowH id A.U.cols x i h

/-- `lis_matrix_solve_csc`, `LIS_MATRIX_SSOR`. src/matrix/lis_matrix_csc.c:812-830 -/
def solveSsorCsc (A : SplitCsc R) (wd : Arr R) (b x : ℕ) (h : Vecs R) : Option (Vecs R) := do
  let (_, h) ← vectorCopy b x h
  let h ← loop 0 A.np h fun i h => do
    let xi ← vrd h x i
    let w ← wd.rd i
    scatterRowT id A.L.cols x i (xi * w) h
  loopDown 0 A.np h fun i h => do
    let xi ← vrd h x i
    let w ← wd.rd i
    let h ← vwr h x i (xi * w)
    scatterRowT id A.U.cols x i (xi * w) h

/-- `for(j…) t -= conj(value[j])*x[index[j]]`. src/matrix/lis_matrix_csc.c:857-860 -/
def subRowH (conj : R → R) (A : Csr R) (x i : ℕ) (h : Vecs R) (t : R) : Option R := do
  let a ← A.ptr.rd i
  let b ← A.ptr.rd (i + 1)
  loop a b t fun j t => do
    let v ← A.value.rd j
    let c ← A.index.rd j
    let xc ← vrd h x c
    pure (t - conj v * xc)

/-- src/matrix/lis_matrix_csc.c:856-861 -/
def solveRowH (conj : R → R) (A : Csr R) (wd : Arr R) (b x i : ℕ) (h : Vecs R) : Option (Vecs R) := do
  let t ← vrd h b i
  let t ← subRowH conj A x i h t
  let w ← wd.rd i
  vwr h x i (t * conj w)

/-- `for(j…) t += conj(value[j])*x[index[j]]` from 0. src/matrix/lis_matrix_csc.c:888-892 -/
def addRowH (conj : R → R) (A : Csr R) (x i : ℕ) (h : Vecs R) : Option R := do
  let a ← A.ptr.rd i
  let b ← A.ptr.rd (i + 1)
  loop a b 0 fun j t => do
    let v ← A.value.rd j
    let c ← A.index.rd j
    let xc ← vrd h x c
    pure (t + conj v * xc)

/-- `lis_matrix_solveh_csc`, `LIS_MATRIX_LOWER`. src/matrix/lis_matrix_csc.c:853-863 -/
def solvehLowerCsc (conj : R → R) (A : SplitCsc R) (wd : Arr R) (b x : ℕ) (h : Vecs R) : Option (Vecs R) :=
  loop 0 A.np h fun i h => solveRowH conj A.U.cols wd b x i h

/-- `lis_matrix_solveh_csc`, `LIS_MATRIX_UPPER`. src/matrix/lis_matrix_csc.c:864-874 -/
def solvehUpperCsc (conj : R → R) (A : SplitCsc R) (wd : Arr R) (b x : ℕ) (h : Vecs R) : Option (Vecs R) :=
  loopDown 0 A.np h fun i h => solveRowH conj A.L.cols wd b x i h

/-- `lis_matrix_solveh_csc`, `LIS_MATRIX_SSOR`. src/matrix/lis_matrix_csc.c:875-895 -/
def solvehSsorCsc (conj : R → R) (A : SplitCsc R) (wd : Arr R) (b x : ℕ) (h : Vecs R) : Option (Vecs R) := do
  let h ← loop 0 A.np h fun i h => solveRowH conj A.U.cols wd b x i h
  loopDown 0 A.np h fun i h => do
    let t ← addRowH conj A.L.cols x i h
    let xi ← vrd h x i
    let w ← wd.rd i
    vwr h x i (xi - t * conj w)

end csc

section msr
variable [Zero R] [Add R] [Sub R] [Mul R]

/-- `lis_matrix_solve_msr`, `LIS_MATRIX_LOWER`. src/matrix/lis_matrix_msr.c:869-879 -/
def solveLowerMsr (A : SplitMsr R) (wd : Arr R) (b x : ℕ) (h : Vecs R) : Option (Vecs R) :=
  loop 0 A.n h fun i h => solveRow A.L.raw wd b x i h

/-- `lis_matrix_solve_msr`, `LIS_MATRIX_UPPER`. src/matrix/lis_matrix_msr.c:880-890 -/
def solveUpperMsr (A : SplitMsr R) (wd : Arr R) (b x : ℕ) (h : Vecs R) : Option (Vecs R) :=
  loopDown 0 A.n h fun i h => solveRow A.U.raw wd b x i h

/-- `lis_matrix_solve_msr`, `LIS_MATRIX_SSOR`. src/matrix/lis_matrix_msr.c:891-912 -/
def solveSsorMsr (A : SplitMsr R) (wd : Arr R) (b x : ℕ) (h : Vecs R) : Option (Vecs R) := do
  let h ← loop 0 A.n h fun i h => solveRow A.L.raw wd b x i h
  loopDown 0 A.n h fun i h => do
    let t ← ssorAcc A.U.raw A.n x i h
    let xi ← vrd h x i
    let w ← wd.rd i
    vwr h x i (xi - t * w)

/-- `lis_matrix_solveh_msr`, `LIS_MATRIX_LOWER`: the rows of `U` in decreasing order.
src/matrix/lis_matrix_msr.c:932-944 -/
def solvehLowerMsr (conj : R → R) (A : SplitMsr R) (wd : Arr R) (b x : ℕ) (h : Vecs R) : Option (Vecs R) := do
  let (_, h) ← vectorCopy b x h
  loopDown 0 A.n h fun i h => do
    let xi ← vrd h x i
    let w ← wd.rd i
    let h ← vwr h x i (xi * conj w)
    scatterRowH conj A.U.raw x i h

/-- `lis_matrix_solveh_msr`, `LIS_MATRIX_UPPER`: the rows of `L` in increasing order.
src/matrix/lis_matrix_msr.c:945-954 -/
def solvehUpperMsr (conj : R → R) (A : SplitMsr R) (wd : Arr R) (b x : ℕ) (h : Vecs R) : Option (Vecs R) := do
  let (_, h) ← vectorCopy b x h
  loop 0 A.n h fun i h => do
    let xi ← vrd h x i
    let w ← wd.rd i
    let h ← vwr h x i (xi * conj w)
    scatterRowH conj A.L.raw x i h

/-- `lis_matrix_solveh_msr`, `LIS_MATRIX_SSOR`. src/matrix/lis_matrix_msr.c:955-973 -/
def solvehSsorMsr (conj : R → R) (A : SplitMsr R) (wd : Arr R) (b x : ℕ) (h : Vecs R) : Option (Vecs R) := do
  let (_, h) ← vectorCopy b x h
  let h ← loop 0 A.n h fun i h => do
    let xi ← vrd h x i
    let w ← wd.rd i
    scatterRowT conj A.U.raw x i (xi * conj w) h
  loopDown 0 A.n h fun i h => do
    let xi ← vrd h x i
    let w ← wd.rd i
    let h ← vwr h x i (xi * conj w)
    scatterRowT conj A.L.raw x i (xi * conj w) h

end msr
end Lis
