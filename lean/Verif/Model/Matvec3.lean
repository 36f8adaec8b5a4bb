import Verif.Spec.Formats3
import Verif.Model.Matvec1

/-!
# Models of the matvec kernels (part 3): BSR, BSC, VBR
-/

namespace Lis
variable {R : Type}

section kernels
variable [Add R] [Mul R] [Zero R]

/-- one block, column-major:
`for(j=0;j<bnc;j++) for(i=0;i<bnr;i++) { y[yo+i] += value[k]*x[xo+j]; k++; }` starting with `k=k0`,
so `k = k0+j*bnr+i`.  src/matvec/lis_matvec_bsr.c:138-146, src/matvec/lis_matvec_bsc.c:141-149 -/
def blockAcc (bnr bnc : ℕ) (value : Arr R) (k0 : ℕ) (x : Arr R) (xo : ℕ) (yo : ℕ) (y : Arr R) :
    Option (Arr R) :=
  loop 0 bnc y fun j y =>
    loop 0 bnr y fun i y => do
      let v ← value.rd (k0 + j * bnr + i)
      let xj ← x.rd (xo + j)
      let yi ← y.rd (yo + i)
      y.wr (yo + i) (yi + v * xj)

/-- one block, conjugate transposed: `y[yo+j] += conj(value[k])*x[xo+i]; k++`.
src/matvec/lis_matvec_bsr.c:977-985, src/matvec/lis_matvec_bsc.c:837-845 -/
def blockAccH [Star R] (bnr bnc : ℕ) (value : Arr R) (k0 : ℕ) (x : Arr R) (xo : ℕ) (yo : ℕ)
    (y : Arr R) : Option (Arr R) :=
  loop 0 bnc y fun j y =>
    loop 0 bnr y fun i y => do
      let v ← value.rd (k0 + j * bnr + i)
      let xi ← x.rd (xo + i)
      let yj ← y.rd (yo + j)
      y.wr (yo + j) (yj + star v * xi)

/-- the blocks of block row `bi` (generic kernel). src/matvec/lis_matvec_bsr.c:133-147 -/
def bsrRowAcc (A : Bsr R) (bi : ℕ) (x y : Arr R) : Option (Arr R) := do
  let bs ← A.bptr.rd bi
  let be ← A.bptr.rd (bi + 1)
  loop bs be y fun bc y => do
    let bj ← A.bindex.rd bc
    blockAcc A.bnr A.bnc A.value (bc * (A.bnr * A.bnc)) x (bj * A.bnc) (bi * A.bnr) y

/-- `lis_matvec_bsr` (generic block size), unsplit. src/matvec/lis_matvec_bsr.c:120-149 -/
def matvecBsr (A : Bsr R) (x y : Arr R) : Option (Arr R) := do
  let y ← zeroFill A.n y
  loop 0 A.nr y fun bi y => bsrRowAcc A bi x y

/-- `lis_matvec_bsr` (generic block size), split. src/matvec/lis_matvec_bsr.c:71-118.
`A->bnr = A->bnc = b` (a split BSR matrix has square blocks). -/
def matvecSplitBsr (A : SplitBsr R) (x y : Arr R) : Option (Arr R) := do
  let y ← zeroFill A.n y
  loop 0 A.nr y fun bi y => do
    let y ← blockAcc A.b A.b A.D (bi * (A.b * A.b)) x (bi * A.b) (bi * A.b) y
    let y ← bsrRowAcc A.L bi x y
    bsrRowAcc A.U bi x y

/-- the accumulators `t0,…,t(bnr-1)` of an unrolled kernel after block `bc`: for each block column
`c` in order, for each row `r`: `t_r += value[bc*bs + c*bnr + r] * x[jj*bnc + c]`.
All sixteen unrolled kernels `lis_matvec_bsr_RxC` consist of exactly these statements in this order
(src/matvec/lis_matvec_bsr.c:152-856, e.g. 2x2 at :333-340, 4x4 at :722-738). -/
def bsrAccT (bnr bnc : ℕ) (value : Arr R) (k0 : ℕ) (x : Arr R) (xo : ℕ) (t : Arr R) :
    Option (Arr R) :=
  blockAcc bnr bnc value k0 x xo 0 t

/-- the blocks of block row `i`, accumulated into `t` -/
def bsrRowAccT (A : Bsr R) (i : ℕ) (x t : Arr R) : Option (Arr R) := do
  let js ← A.bptr.rd i
  let je ← A.bptr.rd (i + 1)
  loop js je t fun j t => do
    let jj ← A.bindex.rd j
    bsrAccT A.bnr A.bnc A.value (j * (A.bnr * A.bnc)) x (jj * A.bnc) t

/-- `y[bnr*i+0] = t0; y[bnr*i+1] = t1; …` -/
def storeT (bnr i : ℕ) (t y : Arr R) : Option (Arr R) :=
  loop 0 bnr y fun r y => do
    let tr ← t.rd r
    y.wr (bnr * i + r) tr

/-- `lis_matvec_bsr_RxC` (`R,C ≤ 4`), unsplit. src/matvec/lis_matvec_bsr.c:186-201 (1x1), :213-227
(1x2), :324-348 (2x2), … The locals `t0,t1,…` are the block `t` of size `bnr`. -/
def matvecBsrU (A : Bsr R) (x y : Arr R) : Option (Arr R) :=
  loop 0 A.nr y fun i y => do
    let t ← bsrRowAccT A i x ⟨A.bnr, fun _ => 0⟩
    storeT A.bnr i t y

/-- `lis_matvec_bsr_RxR`, split (1x1, 2x2, 3x3, 4x4). src/matvec/lis_matvec_bsr.c:159-184 (1x1),
:293-322 (2x2), :453-493 (3x3), :644-698 (4x4).  The C code starts with
`t_r = D[…]*x[…] + …`; the model starts with `t_r = 0` and adds the same products in the same order
(simplification: `0 + a` for `a`). -/
def matvecSplitBsrU (A : SplitBsr R) (x y : Arr R) : Option (Arr R) :=
  loop 0 A.nr y fun i y => do
    let t ← bsrAccT A.b A.b A.D (i * (A.b * A.b)) x (i * A.b) ⟨A.b, fun _ => 0⟩
    let t ← bsrRowAccT A.L i x t
    let t ← bsrRowAccT A.U i x t
    storeT A.b i t y

/-- `lis_matvec` for BSR: unrolled kernels for `bnr,bnc ≤ 4`, the generic one otherwise.
src/matvec/lis_matvec.c:76-87 -/
def lisMatvecBsr (A : Bsr R) (x y : Arr R) : Option (Arr R) :=
  if A.bnr ≤ 4 ∧ A.bnc ≤ 4 then matvecBsrU A x y else matvecBsr A x y

/-- blocks of block column `bi`. src/matvec/lis_matvec_bsc.c:135-150 -/
def bscColAcc (A : Bsc R) (bi : ℕ) (x y : Arr R) : Option (Arr R) := do
  let bs ← A.bptr.rd bi
  let be ← A.bptr.rd (bi + 1)
  loop bs be y fun bc y => do
    let bj ← A.bindex.rd bc
    blockAcc A.bnr A.bnc A.value (bc * (A.bnr * A.bnc)) x (bi * A.bnc) (bj * A.bnr) y

/-- `lis_matvec_bsc`, unsplit, one thread. src/matvec/lis_matvec_bsc.c:122-152 -/
def matvecBsc (A : Bsc R) (x y : Arr R) : Option (Arr R) := do
  let y ← zeroFill A.n y
  loop 0 A.nc y fun bi y => bscColAcc A bi x y

/-- `lis_matvec_bsc`, split, one thread. src/matvec/lis_matvec_bsc.c:71-120 -/
def matvecSplitBsc (A : SplitBsc R) (x y : Arr R) : Option (Arr R) := do
  let y ← loop 0 A.nr y fun bi y =>
    loop 0 A.b y fun i y => do
      let t ← loop 0 A.b 0 fun j t => do
        let v ← A.D.rd (bi * (A.b * A.b) + j * A.b + i)
        let xj ← x.rd (bi * A.b + j)
        pure (t + v * xj)
      y.wr (bi * A.b + i) t
  loop 0 A.nr y fun bi y => do
    let y ← bscColAcc A.L bi x y
    bscColAcc A.U bi x y

/-- inner two loops of the VBR kernels: columns `j ∈ [js,je)`, rows `i ∈ [is,ie)`,
`y[i] += value[k]*x[j]; k++`. src/matvec/lis_matvec_vbr.c:133-141 -/
def vbrBlockAcc (value : Arr R) (k0 js je is ie : ℕ) (x y : Arr R) : Option (Arr R) :=
  loop js je y fun j y =>
    loop is ie y fun i y => do
      let v ← value.rd (k0 + (j - js) * (ie - is) + (i - is))
      let xj ← x.rd j
      let yi ← y.rd i
      y.wr i (yi + v * xj)

/-- the blocks of block row `bi`. src/matvec/lis_matvec_vbr.c:84-97 (L), :98-111 (U) -/
def vbrRowAcc (A : Vbr R) (bi : ℕ) (x y : Arr R) : Option (Arr R) := do
  let bs ← A.bptr.rd bi
  let be ← A.bptr.rd (bi + 1)
  loop bs be y fun bc y => do
    let bj ← A.bindex.rd bc
    let k ← A.ptr.rd bc
    let js ← A.col.rd bj
    let je ← A.col.rd (bj + 1)
    let is ← A.row.rd bi
    let ie ← A.row.rd (bi + 1)
    vbrBlockAcc A.value k js je is ie x y

/-- `lis_matvec_vbr`, unsplit. src/matvec/lis_matvec_vbr.c:113-144 -/
def matvecVbr (A : Vbr R) (x y : Arr R) : Option (Arr R) := do
  let y ← zeroFill A.n y
  loop 0 A.nr y fun bi y => vbrRowAcc A bi x y

/-- `lis_matvec_vbr`, split: the diagonal blocks are read as `v_value[bi][i*bn+j]`, i.e. as if they
were stored row-major.  src/matvec/lis_matvec_vbr.c:62-112 (`bns[bi] = row[bi+1]-row[bi]`) -/
def matvecSplitVbr (A : SplitVbr R) (x y : Arr R) : Option (Arr R) := do
  let y ← loop 0 A.nr y fun bi y => do
    let k ← A.L.row.rd bi
    let k' ← A.L.row.rd (bi + 1)
    let d ← A.D.rd bi
    let bn := k' - k
    loop 0 bn y fun i y => do
      let t ← loop 0 bn 0 fun j t => do
        let v ← d.rd (i * bn + j)
        let xj ← x.rd (k + j)
        pure (t + v * xj)
      y.wr (k + i) t
  loop 0 A.nr y fun bi y => do
    let y ← vbrRowAcc A.L bi x y
    vbrRowAcc A.U bi x y

section conj
variable [Star R]

/-- the blocks of block row `bi`, conjugate transposed. src/matvec/lis_matvec_bsr.c:970-986 -/
def bsrRowAccH (A : Bsr R) (bi : ℕ) (x y : Arr R) : Option (Arr R) := do
  let bs ← A.bptr.rd bi
  let be ← A.bptr.rd (bi + 1)
  loop bs be y fun bc y => do
    let bj ← A.bindex.rd bc
    blockAccH A.bnr A.bnc A.value (bc * (A.bnr * A.bnc)) x (bi * A.bnr) (bj * A.bnc) y

/-- `lis_matvech_bsr`, unsplit, serial. src/matvec/lis_matvec_bsr.c:966-989 -/
def matvechBsr (A : Bsr R) (x y : Arr R) : Option (Arr R) := do
  let y ← zeroFill A.n y
  loop 0 A.nr y fun bi y => bsrRowAccH A bi x y

/-- `lis_matvech_bsr`, split. src/matvec/lis_matvec_bsr.c:878-925 -/
def matvechSplitBsr (A : SplitBsr R) (x y : Arr R) : Option (Arr R) := do
  let y ← zeroFill A.n y
  let y ← loop 0 A.nr y fun bi y =>
    blockAccH A.b A.b A.D (bi * (A.b * A.b)) x (bi * A.b) (bi * A.b) y
  loop 0 A.nr y fun bi y => do
    let y ← bsrRowAccH A.L bi x y
    bsrRowAccH A.U bi x y

/-- `lis_matvech_bsc`, unsplit, serial. src/matvec/lis_matvec_bsc.c:828-851 -/
def matvechBsc (A : Bsc R) (x y : Arr R) : Option (Arr R) := do
  let y ← zeroFill A.n y
  loop 0 A.nc y fun bi y => do
    let bs ← A.bptr.rd bi
    let be ← A.bptr.rd (bi + 1)
    loop bs be y fun bc y => do
      let bj ← A.bindex.rd bc
      blockAccH A.bnr A.bnc A.value (bc * (A.bnr * A.bnc)) x (bj * A.bnr) (bi * A.bnc) y

/-- blocks of block column `bi` in the split branch of `lis_matvech_bsc`, as the code has it:
`bj = bindex[bc]*bnr; y[bj+j] += conj(value[k]) * x[bi*bnr+i]`.
src/matvec/lis_matvec_bsc.c:759-787 -/
def bscColAccH_asWritten (A : Bsc R) (bi : ℕ) (x y : Arr R) : Option (Arr R) := do
  let bs ← A.bptr.rd bi
  let be ← A.bptr.rd (bi + 1)
  loop bs be y fun bc y => do
    let bj ← A.bindex.rd bc
    blockAccH A.bnr A.bnc A.value (bc * (A.bnr * A.bnc)) x (bi * A.bnr) (bj * A.bnr) y

/-- `lis_matvech_bsc`, split. src/matvec/lis_matvec_bsc.c:740-788 -/
def matvechSplitBsc (A : SplitBsc R) (x y : Arr R) : Option (Arr R) := do
  let y ← zeroFill A.n y
  let y ← loop 0 A.nr y fun bi y =>
    blockAccH A.b A.b A.D (bi * (A.b * A.b)) x (bi * A.b) (bi * A.b) y
  loop 0 A.nr y fun bi y => do
    let y ← bscColAccH_asWritten A.L bi x y
    bscColAccH_asWritten A.U bi x y

/-- `y[j] += conj(value[k])*x[i]; k++`. src/matvec/lis_matvec_vbr.c:322-331 -/
def vbrBlockAccH (value : Arr R) (k0 js je is ie : ℕ) (x y : Arr R) : Option (Arr R) :=
  loop js je y fun j y =>
    loop is ie y fun i y => do
      let v ← value.rd (k0 + (j - js) * (ie - is) + (i - is))
      let xi ← x.rd i
      let yj ← y.rd j
      y.wr j (yj + star v * xi)

/-- `lis_matvech_vbr`, unsplit, serial. src/matvec/lis_matvec_vbr.c:310-335 -/
def matvechVbr (A : Vbr R) (x y : Arr R) : Option (Arr R) := do
  let y ← zeroFill A.n y
  loop 0 A.nr y fun bi y => do
    let bs ← A.bptr.rd bi
    let be ← A.bptr.rd (bi + 1)
    loop bs be y fun bc y => do
      let bj ← A.bindex.rd bc
      let k ← A.ptr.rd bc
      let js ← A.col.rd bj
      let je ← A.col.rd (bj + 1)
      let is ← A.row.rd bi
      let ie ← A.row.rd (bi + 1)
      vbrBlockAccH A.value k js je is ie x y
end conj

end kernels
end Lis
