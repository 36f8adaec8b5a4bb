import Verif.Spec.Formats

/-!
# Models of the matvec kernels (part 1): CSR, CSC, COO, DNS, MSR, ELL

The serial (`#ifndef _OPENMP`) code paths.  A kernel takes the matrix, the input vector `x` and the
output block `y` (with whatever it contained before) and returns the new contents of `y`.
-/

namespace Lis
variable {R : Type}

section kernels
variable [Add R] [Mul R] [Zero R]

/-- inner accumulation `for(j=is;j<ie;j++) t0 += value[j]*x[index[j]]`
(src/matvec/lis_matvec_csr.c:100-106) -/
def accRow (index : Arr ℕ) (value x : Arr R) (js je : ℕ) (t0 : R) : Option R :=
  loop js je t0 fun j t => do
    let jj ← index.rd j
    let v ← value.rd j
    let xj ← x.rd jj
    pure (t + v * xj)

/-- `lis_matvec_csr`, unsplit branch. src/matvec/lis_matvec_csr.c:88-110 -/
def matvecCsr (A : Csr R) (x y : Arr R) : Option (Arr R) :=
  loop 0 A.n y fun i y => do
    let js ← A.ptr.rd i
    let je ← A.ptr.rd (i + 1)
    let t ← accRow A.index A.value x js je 0
    y.wr i t

/-- `lis_matvec_csr`, split branch. src/matvec/lis_matvec_csr.c:63-86 -/
def matvecSplitCsr (A : SplitCsr R) (x y : Arr R) : Option (Arr R) :=
  loop 0 A.n y fun i y => do
    let d ← A.D.rd i
    let xi ← x.rd i
    let ls ← A.L.ptr.rd i
    let le ← A.L.ptr.rd (i + 1)
    let t ← accRow A.L.index A.L.value x ls le (d * xi)
    let us ← A.U.ptr.rd i
    let ue ← A.U.ptr.rd (i + 1)
    let t ← accRow A.U.index A.U.value x us ue t
    y.wr i t

/-- `for(i=0;i<n;i++) y[i] = 0.0;` -/
def zeroFill (n : ℕ) (y : Arr R) : Option (Arr R) := loop 0 n y fun i y => y.wr i 0

/-- inner scatter `for(j=js;j<je;j++) y[index[j]] += c(value[j])*t`
(src/matvec/lis_matvec_csr.c:245-249, src/matvec/lis_matvec_csc.c:133-137); `c` is the identity or
`conj`. -/
def scatterCol (c : R → R) (index : Arr ℕ) (value : Arr R) (t : R) (js je : ℕ) (y : Arr R) :
    Option (Arr R) :=
  loop js je y fun j y => do
    let jj ← index.rd j
    let v ← value.rd j
    let yj ← y.rd jj
    y.wr jj (yj + c v * t)

/-- `lis_matvec_csc`, unsplit branch, serial. src/matvec/lis_matvec_csc.c:121-139 -/
def matvecCsc (A : Csc R) (x y : Arr R) : Option (Arr R) := do
  let y ← zeroFill A.n y
  loop 0 A.np y fun i y => do
    let js ← A.ptr.rd i
    let je ← A.ptr.rd (i + 1)
    let t ← x.rd i
    scatterCol id A.index A.value t js je y

/-- `lis_matvec_csc`, split branch. src/matvec/lis_matvec_csc.c:66-90 -/
def matvecSplitCsc (A : SplitCsc R) (x y : Arr R) : Option (Arr R) := do
  let y ← loop 0 A.n y fun i y => do
    let d ← A.D.rd i
    let xi ← x.rd i
    y.wr i (d * xi)
  loop 0 A.np y fun i y => do
    let js ← A.L.ptr.rd i
    let je ← A.L.ptr.rd (i + 1)
    let t ← x.rd i
    let y ← scatterCol id A.L.index A.L.value t js je y
    let js ← A.U.ptr.rd i
    let je ← A.U.ptr.rd (i + 1)
    let t ← x.rd i
    scatterCol id A.U.index A.U.value t js je y

/-- inner loop of the COO kernels: `y[row] += c(value)*x[col]` -/
def scatterCoo (c : R → R) (nnz : ℕ) (row col : Arr ℕ) (value x y : Arr R) : Option (Arr R) :=
  loop 0 nnz y fun k y => do
    let i ← row.rd k
    let j ← col.rd k
    let v ← value.rd k
    let yi ← y.rd i
    let xj ← x.rd j
    y.wr i (yi + c v * xj)

/-- `lis_matvec_coo`, unsplit branch. src/matvec/lis_matvec_coo.c:76-88 -/
def matvecCoo (A : Coo R) (x y : Arr R) : Option (Arr R) := do
  let y ← zeroFill A.n y
  scatterCoo id A.nnz A.row A.col A.value x y

/-- `lis_matvec_coo`, split branch. src/matvec/lis_matvec_coo.c:57-74 -/
def matvecSplitCoo (A : SplitCoo R) (x y : Arr R) : Option (Arr R) := do
  let y ← loop 0 A.n y fun i y => do
    let d ← A.D.rd i
    let xi ← x.rd i
    y.wr i (d * xi)
  let y ← scatterCoo id A.L.nnz A.L.row A.L.col A.L.value x y
  scatterCoo id A.U.nnz A.U.row A.U.col A.U.value x y

/-- `lis_matvec_dns` for one thread (`is=0, ie=n`). src/matvec/lis_matvec_dns.c:74-84 -/
def matvecDns (A : Dns R) (x y : Arr R) : Option (Arr R) := do
  let y ← zeroFill A.n y
  loop 0 A.np y fun j y =>
    loop 0 A.n y fun i y => do
      let v ← A.value.rd (j * A.n + i)
      let xj ← x.rd j
      let yi ← y.rd i
      y.wr i (yi + v * xj)

/-- `lis_matvec_msr`, unsplit branch. src/matvec/lis_matvec_msr.c:82-100 -/
def matvecMsr (A : Msr R) (x y : Arr R) : Option (Arr R) :=
  loop 0 A.n y fun i y => do
    let d ← A.value.rd i
    let xi ← x.rd i
    let js ← A.index.rd i
    let je ← A.index.rd (i + 1)
    let t ← accRow A.index A.value x js je (d * xi)
    y.wr i t

end kernels

section conj
variable [Add R] [Mul R] [Zero R] [Star R]

/-- `lis_matvech_csr`, unsplit branch, serial. src/matvec/lis_matvec_csr.c:235-251 -/
def matvechCsr (A : Csr R) (x y : Arr R) : Option (Arr R) := do
  let y ← zeroFill A.np y
  loop 0 A.n y fun i y => do
    let js ← A.ptr.rd i
    let je ← A.ptr.rd (i + 1)
    let t ← x.rd i
    scatterCol star A.index A.value t js je y

/-- `lis_matvech_csr`, split branch, serial. src/matvec/lis_matvec_csr.c:168-194 -/
def matvechSplitCsr (A : SplitCsr R) (x y : Arr R) : Option (Arr R) := do
  let y ← loop 0 A.np y fun i y => do
    let d ← A.D.rd i
    let xi ← x.rd i
    y.wr i (star d * xi)
  let y ← loop 0 A.n y fun i y => do
    let js ← A.L.ptr.rd i
    let je ← A.L.ptr.rd (i + 1)
    let t ← x.rd i
    scatterCol star A.L.index A.L.value t js je y
  loop 0 A.n y fun i y => do
    let js ← A.U.ptr.rd i
    let je ← A.U.ptr.rd (i + 1)
    let t ← x.rd i
    scatterCol star A.U.index A.U.value t js je y

/-- inner accumulation with conjugation -/
def accRowH (index : Arr ℕ) (value x : Arr R) (js je : ℕ) (t0 : R) : Option R :=
  loop js je t0 fun j t => do
    let jj ← index.rd j
    let v ← value.rd j
    let xj ← x.rd jj
    pure (t + star v * xj)

/-- `lis_matvech_csc`, unsplit branch. src/matvec/lis_matvec_csc.c:176-193 -/
def matvechCsc (A : Csc R) (x y : Arr R) : Option (Arr R) :=
  loop 0 A.np y fun i y => do
    let js ← A.ptr.rd i
    let je ← A.ptr.rd (i + 1)
    let t ← accRowH A.index A.value x js je 0
    y.wr i t

/-- `lis_matvech_csc`, split branch. src/matvec/lis_matvec_csc.c:152-173 -/
def matvechSplitCsc (A : SplitCsc R) (x y : Arr R) : Option (Arr R) :=
  loop 0 A.np y fun i y => do
    let js ← A.L.ptr.rd i
    let je ← A.L.ptr.rd (i + 1)
    let d ← A.D.rd i
    let xi ← x.rd i
    let t ← accRowH A.L.index A.L.value x js je (star d * xi)
    let js ← A.U.ptr.rd i
    let je ← A.U.ptr.rd (i + 1)
    let t ← accRowH A.U.index A.U.value x js je t
    y.wr i t

/-- `lis_matvech_coo`, unsplit branch. src/matvec/lis_matvec_coo.c:114-127.
NB: unlike the split branch, the code does *not* conjugate: `y[j] += A->value[k] * x[i]`. -/
def matvechCoo (A : Coo R) (x y : Arr R) : Option (Arr R) := do
  let y ← zeroFill A.n y
  scatterCoo id A.nnz A.col A.row A.value x y

/-- `lis_matvech_coo`, split branch. src/matvec/lis_matvec_coo.c:98-112 -/
def matvechSplitCoo (A : SplitCoo R) (x y : Arr R) : Option (Arr R) := do
  let y ← loop 0 A.n y fun i y => do
    let d ← A.D.rd i
    let xi ← x.rd i
    y.wr i (star d * xi)
  let y ← scatterCoo star A.L.nnz A.L.col A.L.row A.L.value x y
  scatterCoo star A.U.nnz A.U.col A.U.row A.U.value x y

/-- `lis_matvech_dns`, serial. src/matvec/lis_matvec_dns.c:126-136 -/
def matvechDns (A : Dns R) (x y : Arr R) : Option (Arr R) :=
  loop 0 A.np y fun j y => do
    let t ← loop 0 A.n 0 fun i t => do
      let v ← A.value.rd (j * A.n + i)
      let xi ← x.rd i
      pure (t + star v * xi)
    y.wr j t

/-- `lis_matvech_msr`, unsplit branch, serial. src/matvec/lis_matvec_msr.c:180-196 -/
def matvechMsr (A : Msr R) (x y : Arr R) : Option (Arr R) := do
  let y ← loop 0 A.n y fun i y => do
    let d ← A.value.rd i
    let xi ← x.rd i
    y.wr i (star d * xi)
  loop 0 A.n y fun i y => do
    let t ← x.rd i
    let js ← A.index.rd i
    let je ← A.index.rd (i + 1)
    scatterCol star A.index A.value t js je y

end conj
end Lis
