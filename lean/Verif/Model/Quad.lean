import Verif.Base.C

/-!
# Double-double ("quad") arithmetic (include/lis_precision.h, src/precision/lis_precision.c)

The scalar (not SSE2) macros.  A macro is a sequence of assignments to variables, so that an argument may name a variable
the macro also writes; expressions are functions of the state.  `Fp` are the operations of the type `double`; overflow,
infinities and NaN are not modelled.
-/

namespace Lis

/-- the operations of `double` -/
structure Fp (R : Type) where
  add : R → R → R
  sub : R → R → R
  mul : R → R → R
  div : R → R → R
  sqrt : R → R
  neg : R → R
  /-- `a*b+c` contracted to one operation -/
  fma : R → R → R → R

/-- variables of `LIS_QUAD_DECLAR` (include/lis_precision.h:42) and the two parts of the operands -/
inductive QV
  | p1 | p2 | tq | bhi | blo | chi | clo | sh | eh | sl | el | th | tl
  | aHi | aLo | bHi | bLo | cHi | cLo | dHi | dLo
  deriving DecidableEq

abbrev QSt (R : Type) := QV → R
/-- expression -/
abbrev QEx (R : Type) := QSt R → R

variable {R : Type}

/-- `v = e` -/
def QSt.asg (v : QV) (e : QEx R) (s : QSt R) : QSt R := fun w => if w = v then e s else s w

/-- variable as an expression -/
def rdv (v : QV) : QEx R := fun s => s v

variable (F : Fp R)

def eAdd (a b : QEx R) : QEx R := fun s => F.add (a s) (b s)
def eSub (a b : QEx R) : QEx R := fun s => F.sub (a s) (b s)
def eMul (a b : QEx R) : QEx R := fun s => F.mul (a s) (b s)
def eDiv (a b : QEx R) : QEx R := fun s => F.div (a s) (b s)
def eNeg (a : QEx R) : QEx R := fun s => F.neg (a s)

/-- `LIS_QUAD_FAST_TWO_SUM(a,b,r,e)`. include/lis_precision.h:84-86 -/
def fastTwoSum (a b : QEx R) (r e : QV) (s : QSt R) : QSt R :=
  let s := s.asg r (eAdd F a b)
  s.asg e (eSub F b (eSub F (rdv r) a))

/-- `LIS_QUAD_TWO_SUM(a,b,r,e)`. include/lis_precision.h:94-97 -/
def twoSum (a b : QEx R) (r e : QV) (s : QSt R) : QSt R :=
  let s := s.asg r (eAdd F a b)
  let s := s.asg .th (eSub F (rdv r) a)
  s.asg e (eAdd F (eSub F a (eSub F (rdv r) (rdv .th))) (eSub F b (rdv .th)))

/-- `LIS_QUAD_TWO_DIFF(a,b,r,e)`. include/lis_precision.h:105-108 -/
def twoDiff (a b : QEx R) (r e : QV) (s : QSt R) : QSt R :=
  let s := s.asg r (eSub F a b)
  let s := s.asg .th (eSub F (rdv r) a)
  s.asg e (eSub F (eSub F a (eSub F (rdv r) (rdv .th))) (eAdd F b (rdv .th)))

/-- `LIS_QUAD_SPLIT(b,b_hi,b_lo)`; `C` is `SPLITTER`. include/lis_precision.h:116-119 -/
def quadSplit (C : R) (b : QEx R) (hi lo : QV) (s : QSt R) : QSt R :=
  let s := s.asg .tq (eMul F (fun _ => C) b)
  let s := s.asg hi (eSub F (rdv .tq) (eSub F (rdv .tq) b))
  s.asg lo (eSub F b (rdv hi))

/-- `LIS_QUAD_TWO_PROD(a,b,r,e)`, without `HAS_FMA`. include/lis_precision.h:127-132 -/
def twoProd (C : R) (a b : QEx R) (r e : QV) (s : QSt R) : QSt R :=
  let s := s.asg r (eMul F a b)
  let s := quadSplit F C a .bhi .blo s
  let s := quadSplit F C b .chi .clo s
  s.asg e (eAdd F (eAdd F (eAdd F (eSub F (eMul F (rdv .bhi) (rdv .chi)) (rdv r)) (eMul F (rdv .bhi) (rdv .clo)))
    (eMul F (rdv .blo) (rdv .chi))) (eMul F (rdv .blo) (rdv .clo)))

/-- `LIS_QUAD_TWO_PROD(a,b,r,e)` with `HAS_FMA`, `a*b+r` contracted. include/lis_precision.h:133-137 -/
def twoProdFma (a b : QEx R) (r e : QV) (s : QSt R) : QSt R :=
  let s := s.asg r (eMul F (eNeg F a) b)
  s.asg e (fun s => F.fma (a s) (b s) (s r))

/-- `LIS_QUAD_TWO_SQR(a,r,e)` without `HAS_FMA`. include/lis_precision.h:145-149 -/
def twoSqr (C two : R) (a : QEx R) (r e : QV) (s : QSt R) : QSt R :=
  let s := s.asg r (eMul F a a)
  let s := quadSplit F C a .bhi .blo s
  s.asg e (eAdd F (eAdd F (eSub F (eMul F (rdv .bhi) (rdv .bhi)) (rdv r))
    (eMul F (eMul F (fun _ => two) (rdv .bhi)) (rdv .blo))) (eMul F (rdv .blo) (rdv .blo)))

/-- `LIS_QUAD_MUL`. include/lis_precision.h:162-166 -/
def quadMul (C : R) (aH aL : QV) (bH bL cH cL : QEx R) (s : QSt R) : QSt R :=
  let s := twoProd F C bH cH .p1 .p2 s
  let s := s.asg .p2 (eAdd F (rdv .p2) (eMul F bH cL))
  let s := s.asg .p2 (eAdd F (rdv .p2) (eMul F bL cH))
  fastTwoSum F (rdv .p1) (rdv .p2) aH aL s

/-- `LIS_QUAD_MULD`. include/lis_precision.h:174-177 -/
def quadMulD (C : R) (aH aL : QV) (bH bL c : QEx R) (s : QSt R) : QSt R :=
  let s := twoProd F C bH c .p1 .p2 s
  let s := s.asg .p2 (eAdd F (rdv .p2) (eMul F bL c))
  fastTwoSum F (rdv .p1) (rdv .p2) aH aL s

/-- `LIS_QUAD_SQR`. include/lis_precision.h:185-189 -/
def quadSqr (C two : R) (aH aL : QV) (bH bL : QEx R) (s : QSt R) : QSt R :=
  let s := twoSqr F C two bH .p1 .p2 s
  let s := s.asg .p2 (eAdd F (rdv .p2) (eMul F (eMul F (fun _ => two) bH) bL))
  let s := s.asg .p2 (eAdd F (rdv .p2) (eMul F bL bL))
  fastTwoSum F (rdv .p1) (rdv .p2) aH aL s

/-- `LIS_QUAD_ADD` without `USE_FAST_QUAD_ADD`. include/lis_precision.h:198-204 -/
def quadAddSlow (aH aL : QV) (bH bL cH cL : QEx R) (s : QSt R) : QSt R :=
  let s := twoSum F bH cH .sh .eh s
  let s := twoSum F bL cL .sl .el s
  let s := s.asg .eh (eAdd F (rdv .eh) (rdv .sl))
  let s := fastTwoSum F (rdv .sh) (rdv .eh) .sh .eh s
  let s := s.asg .eh (eAdd F (rdv .eh) (rdv .el))
  fastTwoSum F (rdv .sh) (rdv .eh) aH aL s

/-- `LIS_QUAD_ADD` with `USE_FAST_QUAD_ADD` (what `configure` selects). include/lis_precision.h:206-210 -/
def quadAdd (aH aL : QV) (bH bL cH cL : QEx R) (s : QSt R) : QSt R :=
  let s := twoSum F bH cH .sh .eh s
  let s := s.asg .eh (eAdd F (rdv .eh) bL)
  let s := s.asg .eh (eAdd F (rdv .eh) cL)
  fastTwoSum F (rdv .sh) (rdv .eh) aH aL s

/-- `LIS_QUAD_DIV`. include/lis_precision.h:219-226 -/
def quadDiv (C : R) (aH aL : QV) (bH bL cH cL : QEx R) (s : QSt R) : QSt R :=
  let s := s.asg .tl (eDiv F bH cH)
  let s := quadMulD F C .eh .el cH cL (rdv .tl) s
  let s := twoDiff F bH (rdv .eh) .sh .sl s
  let s := s.asg .sl (eSub F (rdv .sl) (rdv .el))
  let s := s.asg .sl (eAdd F (rdv .sl) bL)
  let s := s.asg .th (eDiv F (eAdd F (rdv .sh) (rdv .sl)) cH)
  fastTwoSum F (rdv .tl) (rdv .th) aH aL s

/-- `LIS_QUAD_SQRT` for `b_hi > 0` (otherwise the result is 0 and the status `LIS_FAILS`). include/lis_precision.h:234-252 -/
def quadSqrt (C one half two : R) (aH aL : QV) (bH bL : QEx R) (s : QSt R) : QSt R :=
  let s := s.asg .p1 (eDiv F (fun _ => one) (fun s => F.sqrt (bH s)))
  let s := s.asg .p2 (eMul F bH (rdv .p1))
  let s := s.asg .p1 (eMul F (rdv .p1) (fun _ => half))
  let s := twoSqr F C two (rdv .p2) .chi .clo s
  let s := quadAdd F .th .eh bH bL (eNeg F (rdv .chi)) (eNeg F (rdv .clo)) s
  let s := s.asg .p1 (eMul F (rdv .p1) (rdv .th))
  fastTwoSum F (rdv .p1) (rdv .p2) aH aL s

/-- `LIS_QUAD_FMA`. include/lis_precision.h:260-262 -/
def quadFma (C : R) (dH dL : QV) (aH aL bH bL cH cL : QEx R) (s : QSt R) : QSt R :=
  let s := quadMul F C .chi .p2 bH bL cH cL s
  quadAdd F dH dL aH aL (rdv .chi) (rdv .p2) s

/-- a pair `LIS_QUAD` -/
structure QD (R : Type) where
  hi : R
  lo : R
  deriving DecidableEq

/-- state in which `b` and `c` hold the operands -/
def QSt.ofBC (b c : QD R) (junk : QSt R) : QSt R := fun v =>
  match v with
  | .bHi => b.hi
  | .bLo => b.lo
  | .cHi => c.hi
  | .cLo => c.lo
  | v => junk v

/-- the result -/
def QSt.outA (s : QSt R) : QD R := ⟨s .aHi, s .aLo⟩

/-- `lis_quad_add` (`slow`: without `USE_FAST_QUAD_ADD`). src/precision/lis_precision.c:154-164 -/
def lisQuadAdd (slow : Bool) (junk : QSt R) (b c : QD R) : QD R :=
  ((if slow then quadAddSlow F .aHi .aLo (rdv .bHi) (rdv .bLo) (rdv .cHi) (rdv .cLo)
    else quadAdd F .aHi .aLo (rdv .bHi) (rdv .bLo) (rdv .cHi) (rdv .cLo)) (QSt.ofBC b c junk)).outA

/-- `lis_quad_sub`. src/precision/lis_precision.c:167-177 -/
def lisQuadSub (junk : QSt R) (b c : QD R) : QD R :=
  (quadAdd F .aHi .aLo (rdv .bHi) (rdv .bLo) (eNeg F (rdv .cHi)) (eNeg F (rdv .cLo)) (QSt.ofBC b c junk)).outA

/-- `lis_quad_mul`. src/precision/lis_precision.c:181-191 -/
def lisQuadMul (C : R) (junk : QSt R) (b c : QD R) : QD R :=
  (quadMul F C .aHi .aLo (rdv .bHi) (rdv .bLo) (rdv .cHi) (rdv .cLo) (QSt.ofBC b c junk)).outA

/-- `lis_quad_mul_dd_d`. src/precision/lis_precision.c:194-204 -/
def lisQuadMulD (C : R) (junk : QSt R) (b : QD R) (c : R) : QD R :=
  (quadMulD F C .aHi .aLo (rdv .bHi) (rdv .bLo) (fun _ => c) (QSt.ofBC b b junk)).outA

/-- `lis_quad_sqr`. src/precision/lis_precision.c:207-217 -/
def lisQuadSqr (C two : R) (junk : QSt R) (b : QD R) : QD R :=
  (quadSqr F C two .aHi .aLo (rdv .bHi) (rdv .bLo) (QSt.ofBC b b junk)).outA

/-- `lis_quad_div`. src/precision/lis_precision.c:220-230 -/
def lisQuadDiv (C : R) (junk : QSt R) (b c : QD R) : QD R :=
  (quadDiv F C .aHi .aLo (rdv .bHi) (rdv .bLo) (rdv .cHi) (rdv .cLo) (QSt.ofBC b c junk)).outA

/-- `lis_quad_sqrt` of a positive number. src/precision/lis_precision.c:233-244 -/
def lisQuadSqrt (C one half two : R) (junk : QSt R) (b : QD R) : QD R :=
  (quadSqrt F C one half two .aHi .aLo (rdv .bHi) (rdv .bLo) (QSt.ofBC b b junk)).outA

end Lis
