import Verif.Model.Quad
import Verif.Spec.Formats

/-!
# Vectors and CSR products in double-double precision
(src/precision/lis_precision_vec.c, src/precision/lis_precision_matvec.c; the scalar serial paths)

A vector has the arrays `value` and `value_lo`.
-/

namespace Lis
variable {R : Type} (F : Fp R)

/-- `value`, `value_lo` -/
structure QVec (R : Type) where
  hi : Arr R
  lo : Arr R

def QVec.rd (x : QVec R) (i : ℕ) : Option (QD R) := do
  let h ← x.hi.rd i
  let l ← x.lo.rd i
  pure ⟨h, l⟩

def QVec.wr (x : QVec R) (i : ℕ) (q : QD R) : Option (QVec R) := do
  let h ← x.hi.wr i q.hi
  let l ← x.lo.wr i q.lo
  pure ⟨h, l⟩

/-- `LIS_QUAD_FMAD`. include/lis_precision.h:270-272 -/
def quadFmaD (C : R) (dH dL : QV) (aH aL bH bL c : QEx R) (s : QSt R) : QSt R :=
  let s := quadMulD F C .chi .p2 bH bL c s
  quadAdd F dH dL aH aL (rdv .chi) (rdv .p2) s

/-- `LIS_QUAD_FSA`. include/lis_precision.h:280-282 -/
def quadFsa (C two : R) (dH dL : QV) (aH aL bH bL : QEx R) (s : QSt R) : QSt R :=
  let s := quadSqr F C two .bhi .p2 bH bL s
  quadAdd F dH dL aH aL (rdv .bhi) (rdv .p2) s

/-- state in which `a`, `b`, `c` hold the operands; `d` is separate -/
def QSt.ofABC (a b c : QD R) (junk : QSt R) : QSt R := fun v =>
  match v with
  | .aHi => a.hi
  | .aLo => a.lo
  | v => QSt.ofBC b c junk v

/-- `LIS_QUAD_FMA(y,yl,y,yl,alpha,x)`: the result overwrites the first operand -/
def fmaToA (C : R) (junk : QSt R) (a b c : QD R) : QD R :=
  let s := quadFma F C .aHi .aLo (rdv .aHi) (rdv .aLo) (rdv .bHi) (rdv .bLo) (rdv .cHi) (rdv .cLo) (QSt.ofABC a b c junk)
  ⟨s .aHi, s .aLo⟩

/-- `LIS_QUAD_FMA(z,zl,y,yl,alpha,x)` -/
def fmaToD (C : R) (junk : QSt R) (a b c : QD R) : QD R :=
  let s := quadFma F C .dHi .dLo (rdv .aHi) (rdv .aLo) (rdv .bHi) (rdv .bLo) (rdv .cHi) (rdv .cLo) (QSt.ofABC a b c junk)
  ⟨s .dHi, s .dLo⟩

/-- `LIS_QUAD_FMA(y,yl,x,xl,alpha,y,yl)`: the result overwrites the last operand -/
def fmaToC (C : R) (junk : QSt R) (a b c : QD R) : QD R :=
  let s := quadFma F C .cHi .cLo (rdv .aHi) (rdv .aLo) (rdv .bHi) (rdv .bLo) (rdv .cHi) (rdv .cLo) (QSt.ofABC a b c junk)
  ⟨s .cHi, s .cLo⟩

/-- `LIS_QUAD_FMAD(y,yl,y,yl,x,xl,v)` -/
def fmadToA (C : R) (junk : QSt R) (a b : QD R) (c : R) : QD R :=
  let s := quadFmaD F C .aHi .aLo (rdv .aHi) (rdv .aLo) (rdv .bHi) (rdv .bLo) (fun _ => c) (QSt.ofABC a b b junk)
  ⟨s .aHi, s .aLo⟩

/-- `LIS_QUAD_FSA(d,dl,d,dl,x,xl)` -/
def fsaToA (C two : R) (junk : QSt R) (a b : QD R) : QD R :=
  let s := quadFsa F C two .aHi .aLo (rdv .aHi) (rdv .aLo) (rdv .bHi) (rdv .bLo) (QSt.ofABC a b b junk)
  ⟨s .aHi, s .aLo⟩

/-- `LIS_QUAD_MUL(x,xl,x,xl,alpha)` -/
def mulToB (C : R) (junk : QSt R) (b c : QD R) : QD R :=
  let s := quadMul F C .bHi .bLo (rdv .bHi) (rdv .bLo) (rdv .cHi) (rdv .cLo) (QSt.ofBC b c junk)
  ⟨s .bHi, s .bLo⟩

/-- `LIS_QUAD_MULD(x,xl,x,xl,alpha)` -/
def muldToB (C : R) (junk : QSt R) (b : QD R) (c : R) : QD R :=
  let s := quadMulD F C .bHi .bLo (rdv .bHi) (rdv .bLo) (fun _ => c) (QSt.ofBC b b junk)
  ⟨s .bHi, s .bLo⟩

/-- `LIS_QUAD_DIV(x,xl,one,0,x,xl)` -/
def divToC (C : R) (junk : QSt R) (b c : QD R) : QD R :=
  let s := quadDiv F C .cHi .cLo (rdv .bHi) (rdv .bLo) (rdv .cHi) (rdv .cLo) (QSt.ofBC b c junk)
  ⟨s .cHi, s .cLo⟩

variable (C : R) (junk : QSt R)

/-- `lis_vector_axpyex_mmm`. src/precision/lis_precision_vec.c:82-136 -/
def axpyex (n : ℕ) (alpha : QD R) (x y : QVec R) : Option (QVec R) :=
  loop 0 n y fun i y => do
    let yi ← y.rd i
    let xi ← x.rd i
    y.wr i (fmaToA F C junk yi alpha xi)

/-- `lis_vector_axpyzex_mmmm`, `z` neither `x` nor `y`. src/precision/lis_precision_vec.c:142-199 -/
def axpyzex (n : ℕ) (alpha : QD R) (x y z : QVec R) : Option (QVec R) :=
  loop 0 n z fun i z => do
    let yi ← y.rd i
    let xi ← x.rd i
    z.wr i (fmaToD F C junk yi alpha xi)

/-- `lis_vector_xpayex_mmm`. src/precision/lis_precision_vec.c:205-259 -/
def xpayex (n : ℕ) (x : QVec R) (alpha : QD R) (y : QVec R) : Option (QVec R) :=
  loop 0 n y fun i y => do
    let xi ← x.rd i
    let yi ← y.rd i
    y.wr i (fmaToC F C junk xi alpha yi)

/-- `lis_vector_scaleex_mm`. src/precision/lis_precision_vec.c:653-703 -/
def scaleex (n : ℕ) (alpha : QD R) (x : QVec R) : Option (QVec R) :=
  loop 0 n x fun i x => do
    let xi ← x.rd i
    x.wr i (mulToB F C junk xi alpha)

/-- `lis_vector_scaleex_nm`. src/precision/lis_precision_vec.c:591-647 -/
def scaleexD (n : ℕ) (alpha : R) (x : QVec R) : Option (QVec R) :=
  loop 0 n x fun i x => do
    let xi ← x.rd i
    x.wr i (muldToB F C junk xi alpha)

/-- `lis_vector_reciprocalex_m`. src/precision/lis_precision_vec.c:738-775 -/
def reciprocalex [One R] [Zero R] (n : ℕ) (x : QVec R) : Option (QVec R) :=
  loop 0 n x fun i x => do
    let xi ← x.rd i
    x.wr i (divToC F C junk ⟨1, 0⟩ xi)

/-- `lis_vector_dotex_mmm`, the `for` loop. src/precision/lis_precision_vec.c:346-352 -/
def dotex [Zero R] (n : ℕ) (x y : QVec R) : Option (QD R) :=
  loop 0 n (⟨0, 0⟩ : QD R) fun i d => do
    let yi ← y.rd i
    let xi ← x.rd i
    pure (fmaToA F C junk d yi xi)

/-- the sum of squares in `lis_vector_nrm2ex_mm`. src/precision/lis_precision_vec.c:456-463 -/
def sumsqex [Zero R] (two : R) (n : ℕ) (x : QVec R) : Option (QD R) :=
  loop 0 n (⟨0, 0⟩ : QD R) fun i d => do
    let xi ← x.rd i
    pure (fsaToA F C two junk d xi)

/-- `for(j=is;j<ie;j++) LIS_QUAD_FMAD(y[i],yl[i],y[i],yl[i],x[j0],xl[j0],value[j])`.
src/precision/lis_precision_matvec.c:85-93, 126-134 -/
def accRowEx (index : Arr ℕ) (value : Arr R) (x : QVec R) (i js je : ℕ) (y : QVec R) : Option (QVec R) :=
  loop js je y fun j y => do
    let j0 ← index.rd j
    let v ← value.rd j
    let yi ← y.rd i
    let xj ← x.rd j0
    y.wr i (fmadToA F C junk yi xj v)

/-- `lis_matvec_csr_mp`, not split. src/precision/lis_precision_matvec.c:107-137 -/
def matvecCsrEx [Zero R] (A : Csr R) (x y : QVec R) : Option (QVec R) :=
  loop 0 A.n y fun i y => do
    let y ← y.wr i ⟨0, 0⟩
    let js ← A.ptr.rd i
    let je ← A.ptr.rd (i + 1)
    accRowEx F C junk A.index A.value x i js je y

/-- `lis_matvec_csr_mp`, split. src/precision/lis_precision_matvec.c:71-106 -/
def matvecSplitCsrEx (A : SplitCsr R) (x y : QVec R) : Option (QVec R) :=
  loop 0 A.n y fun i y => do
    let d ← A.D.rd i
    let xi ← x.rd i
    let y ← y.wr i (lisQuadMulD F C junk xi d)
    let ls ← A.L.ptr.rd i
    let le ← A.L.ptr.rd (i + 1)
    let y ← accRowEx F C junk A.L.index A.L.value x i ls le y
    let us ← A.U.ptr.rd i
    let ue ← A.U.ptr.rd (i + 1)
    accRowEx F C junk A.U.index A.U.value x i us ue y

end Lis
