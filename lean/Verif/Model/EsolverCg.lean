import Verif.Model.Esolver
import Verif.Model.Array
import Verif.Model.GramSchmidt

/-!
# The conjugate gradient and conjugate residual eigensolvers (src/esolver/lis_esolver_cg.c)

`lis_ecg`, `lis_egcg`, `lis_ecr` (the default eigensolver, src/esolver/lis_esolver.c:169), `lis_egcr`, as programs over the
calls of `Model/Esolver.lean`. `esolver->x = 0`, `esolver->work[k] = k+1`.

Parameters: `jl`, `jr` are the uninitialised `lambda`, `resid` (visible when `emaxiter = 0`), `lt` is the comparison `<` of
`LIS_REAL` (a parameter: in floating point it is not the negation of `≤`), `perr` is the return code of
`lis_precon_create`. `lis_psolve` is the function `K.base.ps`.
Not modelled: timing, printing, the `solver` object itself (all four functions read `solver->itime` after
`lis_solver_destroy(solver)`), errors of `lis_solver_set_optionC`.
-/

namespace Lis
variable {R S : Type}

section calls
def eAxpy (a : R) (x y : ℕ) : EProg R S Unit := .vop false (.axpy a x y) (.ret ())
def eXpay (x : ℕ) (a : R) (y : ℕ) : EProg R S Unit := .vop false (.xpay x a y) (.ret ())
def ePsolve (x y : ℕ) (h : x ≠ y := by decide) : EProg R S Unit := .vop false (.psolve x y h) (.ret ())
end calls

/-- `while( iter<emaxiter ){ iter = iter+1; …; if( … ) break; … }`: `fuel = emaxiter-iter`; the body says whether it left the
loop. The result is the final `iter` and the local variables. E.g. src/esolver/lis_esolver_cg.c:878-942 -/
def eWhile {σ : Type} (body : ℕ → σ → EProg R S (Bool × σ)) : ℕ → ℕ → σ → EProg R S (ℕ × σ)
  | 0, i, s => pure (i, s)
  | k + 1, i, s => do
    let r ← body (i + 1) s
    if r.1 then pure (i + 1, r.2) else eWhile body k (i + 1) r.2

section solvers
variable [Zero R] [One R] [Add R] [Neg R] [Sub R] [Mul R] [Div R] [DecidableEq R] [RealOps S] [EigOps R S]

/-- what follows the loop. src/esolver/lis_esolver_cg.c:947-949, 959-972 and the same lines of the other functions -/
def cgDone (lt : S → S → Bool) (o : EOpts R S) (iter : ℕ) (lambda : R) (resid : S) : EProg R S (EOut R S) := do
  eShiftIf o (-o.sigma)
  pure ⟨if lt resid o.tol then .success else .maxiter, some (iter, resid, lambda + o.sigma)⟩

/-- the error return for `lis_precon_create` (nothing is undone). src/esolver/lis_esolver_cg.c:862-868 -/
def cgFail (e : Err) : EProg R S (EOut R S) := pure ⟨e, none⟩

/-! ### conjugate residual -/

/-- the expression under `alpha` and `beta`: `a - 2.0*lambda*b + lambda*lambda*c`. src/esolver/lis_esolver_cg.c:891,921 -/
def crDen (lambda a b c : R) : R := a - (1 + 1) * lambda * b + lambda * lambda * c

/-- one iteration of `lis_ecr`; local variables lambda, resid.
r = 1, p = 2, w = 3, Ax = 4, Ap = 5, Aw = 6. src/esolver/lis_esolver_cg.c:878-942 -/
def ecrBody (lt : S → S → Bool) (o : EOpts R S) (iter : ℕ) (s : R × S) : EProg R S (Bool × (R × S)) := do
  let lambda := s.1
  let rAp ← eDot 1 5
  let rp ← eDot 1 2
  let ApAp ← eDot 5 5
  let pAp ← eDot 2 5
  let pp ← eDot 2 2
  let alpha := (rAp - lambda * rp) / crDen lambda ApAp pAp pp
  eAxpy alpha 2 0
  eMatvec false 0 4
  let xAx ← eDot 0 4
  let nx ← (eNrm2 0 : EProg R S S)
  let lambda := xAx / EigOps.ofS (nx * nx)
  eAxpyz (-lambda) 0 4 1
  eScale (-1) 1
  ePsolve 1 3
  eMatvec false 3 6
  let AwAp ← eDot 6 5
  let pAw ← eDot 2 6
  let wAp ← eDot 3 5
  let wp ← eDot 3 2
  let beta := -(AwAp - lambda * (pAw + wAp) + lambda * lambda * wp) / crDen lambda ApAp pAp pp
  eXpay 3 beta 2
  eXpay 6 beta 5
  let nr ← (eNrm2 1 : EProg R S S)
  let resid := nr / EigOps.fabs lambda
  eRecord o iter resid
  pure (lt resid o.tol, (lambda, resid))

/-- `lis_ecr`. src/esolver/lis_esolver_cg.c:780-973 -/
def lisEcr (lt : S → S → Bool) (perr : Err) (jr : S) (o : EOpts R S) : EProg R S (EOut R S) := do
  eStart o
  eShiftIf o o.sigma
  eNormalize 0
  eMatvec false 0 4
  eSetAll 0 2
  eSetAll 0 5
  if perr ≠ .success then cgFail perr else
  let lambda ← eDot 0 4
  eAxpyz (-lambda) 0 4 1
  eScale (-1) 1
  eCopy 1 2
  eMatvec false 2 5
  let r ← eWhile (ecrBody lt o) o.maxiter 0 (lambda, jr)
  eNormalize 0
  cgDone lt o r.1 r.2.1 r.2.2

/-- one iteration of `lis_egcr`. r = 1, p = 2, w = 3, Ax = 4, Ap = 5, Aw = 6, Bx = 7, Bp = 8, Bw = 9.
src/esolver/lis_esolver_cg.c:1170-1237 -/
def egcrBody (lt : S → S → Bool) (o : EOpts R S) (iter : ℕ) (s : R × S) : EProg R S (Bool × (R × S)) := do
  let lambda := s.1
  let rAp ← eDot 1 5
  let rBp ← eDot 1 8
  let ApAp ← eDot 5 5
  let ApBp ← eDot 5 8
  let BpBp ← eDot 8 8
  let alpha := (rAp - lambda * rBp) / crDen lambda ApAp ApBp BpBp
  eAxpy alpha 2 0
  eMatvec false 0 4
  eMatvec true 0 7
  let AxBx ← eDot 4 7
  let BxBx ← eDot 7 7
  let lambda := AxBx / BxBx
  eAxpyz (-lambda) 7 4 1
  eScale (-1) 1
  ePsolve 1 3
  eMatvec false 3 6
  eMatvec true 3 9
  let AwAp ← eDot 6 5
  let AwBp ← eDot 6 8
  let ApBw ← eDot 5 9
  let BwBp ← eDot 9 8
  let beta := -(AwAp - lambda * (AwBp + ApBw) + lambda * lambda * BwBp) / crDen lambda ApAp ApBp BpBp
  eXpay 3 beta 2
  eXpay 6 beta 5
  eXpay 9 beta 8
  let nr ← (eNrm2 1 : EProg R S S)
  let resid := nr / EigOps.fabs lambda
  eRecord o iter resid
  pure (lt resid o.tol, (lambda, resid))

/-- `lis_egcr`. src/esolver/lis_esolver_cg.c:1063-1273 -/
def lisEgcr (lt : S → S → Bool) (perr : Err) (jr : S) (o : EOpts R S) : EProg R S (EOut R S) := do
  eStart o
  eShiftIf o o.sigma
  eNormalize 0
  eMatvec false 0 4
  eMatvec true 0 7
  if perr ≠ .success then cgFail perr else
  let AxBx ← eDot 4 7
  let BxBx ← eDot 7 7
  let lambda := AxBx / BxBx
  eAxpyz (-lambda) 7 4 1
  eScale (-1) 1
  eCopy 1 2
  eMatvec false 2 5
  eMatvec true 2 8
  let r ← eWhile (egcrBody lt o) o.maxiter 0 (lambda, jr)
  eNormalize 0
  cgDone lt o r.1 r.2.1 r.2.2

/-! ### conjugate gradient -/

/-- `A3` or `B3` from the six inner products: `A3[1]=A3[3]; A3[2]=A3[6]; A3[5]=A3[7]`. src/esolver/lis_esolver_cg.c:259-280 -/
def mat3 (a0 a3 a6 a4 a7 a8 : R) : Arr R :=
  ⟨9, fun i => [a0, a3, a6, a3, a4, a7, a6, a7].getD i a8⟩

/-- scaling `x` and its image(s) by `1/‖x‖`. src/esolver/lis_esolver_cg.c:315-321 -/
def cgRescale (x : ℕ) (l : List ℕ) : EProg R S Unit := do
  let nrm2 ← (eNrm2 x : EProg R S S)
  l.foldr (fun v p => do eScale (EigOps.ofS (1 / nrm2)) v; p) (pure ())

/-- the update of `x` and `p` (or of their images): `scale(v0,w); axpy(v2,p,w); xpay(w,v1,x); copy(w,p)`.
src/esolver/lis_esolver_cg.c:302-312 -/
def cgUpdate (v : R × R × R) (w p x : ℕ) : EProg R S Unit := do
  eScale v.1 w
  eAxpy v.2.2 p w
  eXpay w v.2.1 x
  eCopy w p

/-- one iteration of `lis_ecg`; `rr A3 B3` is the vector `v3` of the 3×3 iteration.
r = 1, w = 2, p = 3, Ax = 4, Aw = 5, Ap = 6. src/esolver/lis_esolver_cg.c:224-324 -/
def ecgBody (rr : Arr R → Arr R → R × R × R) (lt : S → S → Bool) (o : EOpts R S) (iter : ℕ) (_s : R × S) :
    EProg R S (Bool × (R × S)) := do
  let lambda ← eDot 0 4
  eAxpyz (-1 / lambda) 4 0 1
  let resid ← (eNrm2 1 : EProg R S S)
  eRecord o iter resid
  if lt resid o.tol then pure (true, (lambda, resid)) else
  ePsolve 1 2
  eNormalize 2
  eMatvec false 2 5
  let a0 ← eDot 2 5
  let a3 ← eDot 0 5
  let a6 ← eDot 3 5
  let a4 ← eDot 0 4
  let a7 ← eDot 3 4
  let a8 ← eDot 3 6
  let b0 ← eDot 2 2
  let b3 ← eDot 0 2
  let b6 ← eDot 3 2
  let b4 ← eDot 0 0
  let b7 ← eDot 3 0
  let b8 ← eDot 3 3
  let v := rr (mat3 a0 a3 a6 a4 a7 a8) (mat3 b0 b3 b6 b4 b7 b8)
  cgUpdate v 2 3 0
  cgUpdate v 5 6 4
  cgRescale 0 [0, 4]
  cgRescale 3 [3, 6]
  pure (false, (lambda, resid))

/-- `lis_ecg`. src/esolver/lis_esolver_cg.c:126-361 -/
def lisEcg (rr : Arr R → Arr R → R × R × R) (lt : S → S → Bool) (perr : Err) (jl : R) (jr : S) (o : EOpts R S) :
    EProg R S (EOut R S) := do
  eStart o
  eShiftIf o o.sigma
  eNormalize 0
  eMatvec false 0 4
  let err ← (eLin false 0 3 : EProg R S Err)
  if err ≠ .success then cgFail err else
  eCopy 0 6
  if perr ≠ .success then cgFail perr else
  let r ← eWhile (ecgBody rr lt o) o.maxiter 0 (jl, jr)
  cgDone lt o r.1 r.2.1 r.2.2

/-- one iteration of `lis_egcg`. r = 1, w = 2, p = 3, Ax = 4, Aw = 5, Ap = 6, Bx = 7, Bw = 8, Bp = 9.
`x` and `p` are scaled (lines 641-649) but, unlike in `lis_ecg`, not updated. src/esolver/lis_esolver_cg.c:549-651 -/
def egcgBody (rr : Arr R → Arr R → R × R × R) (lt : S → S → Bool) (o : EOpts R S) (iter : ℕ) (_s : R × S) :
    EProg R S (Bool × (R × S)) := do
  let AxBx ← eDot 4 7
  let BxBx ← eDot 7 7
  let lambda := AxBx / BxBx
  eAxpyz (-1 / lambda) 4 7 1
  let resid ← (eNrm2 1 : EProg R S S)
  eRecord o iter resid
  if lt resid o.tol then pure (true, (lambda, resid)) else
  ePsolve 1 2
  eNormalize 2
  eMatvec false 2 5
  eMatvec true 2 8
  let a0 ← eDot 2 5
  let a3 ← eDot 0 5
  let a6 ← eDot 3 5
  let a4 ← eDot 0 4
  let a7 ← eDot 3 4
  let a8 ← eDot 3 6
  let b0 ← eDot 2 8
  let b3 ← eDot 0 8
  let b6 ← eDot 3 8
  let b4 ← eDot 0 7
  let b7 ← eDot 3 7
  let b8 ← eDot 3 9
  let v := rr (mat3 a0 a3 a6 a4 a7 a8) (mat3 b0 b3 b6 b4 b7 b8)
  cgUpdate v 8 9 7
  cgUpdate v 5 6 4
  cgRescale 0 [0, 4, 7]
  cgRescale 3 [3, 6, 9]
  pure (false, (lambda, resid))

/-- `lis_egcg`. src/esolver/lis_esolver_cg.c:442-695 -/
def lisEgcg (rr : Arr R → Arr R → R × R × R) (lt : S → S → Bool) (perr : Err) (jl : R) (jr : S) (o : EOpts R S) :
    EProg R S (EOut R S) := do
  eStart o
  eShiftIf o o.sigma
  eNormalize 0
  eMatvec false 0 4
  eMatvec true 0 7
  let err ← (eLin false 0 3 : EProg R S Err)
  if err ≠ .success then cgFail err else
  eCopy 0 6
  eMatvec true 3 9
  if perr ≠ .success then cgFail perr else
  let r ← eWhile (egcgBody rr lt o) o.maxiter 0 (jl, jr)
  cgDone lt o r.1 r.2.1 r.2.2

end solvers

/-! ### the 3×3 iteration -/

section ritz
variable [Zero R] [One R] [Add R] [Neg R] [Sub R] [Mul R] [Div R]

/-- `lis_array_scale`. src/array/lis_array.c:172-185 -/
def arrayScale (n : ℕ) (a : R) (x : Arr R) : Option (Arr R) :=
  loop 0 n x fun i x => do
    let v ← x.rd i
    x.wr i (a * v)

/-- `lis_array_dot` (real). src/array/lis_array.c:310-324 -/
def arrayDot (n : ℕ) (x y : Arr R) : Option R :=
  loop 0 n (0 : R) fun i t => do
    let u ← x.rd i
    let v ← y.rd i
    pure (t + u * v)

/-- `lis_array_axpyz`. src/array/lis_array.c:155-168 -/
def arrayAxpyz (n : ℕ) (a : R) (x y z : Arr R) : Option (Arr R) :=
  loop 0 n z fun i z => do
    let u ← x.rd i
    let v ← y.rd i
    z.wr i (a * u + v)

/-- `lis_array_set_all`. src/array/lis_array.c:223-236 -/
def arraySetAll (n : ℕ) (a : R) (x : Arr R) : Option (Arr R) :=
  loop 0 n x fun i x => x.wr i a

/-- the local arrays of the 3×3 iteration: `v3`, `B3v3`, `z3`, `q3`, `W3` -/
structure Ritz (R : Type) where
  v : Arr R
  bv : Arr R
  z : Arr R
  q : Arr R
  w : Arr R

/-- one iteration; `lt` is `resid3<tol`. src/esolver/lis_esolver_cg.c:285-299 -/
def ritzStep (sqrt : R → R) (lt : R → Bool) (A3 B3 : Arr R) (_i : ℕ) (s : Ritz R) : Option (Bool × Ritz R) := do
  let nrm2 ← arrayNrm2 sqrt 3 s.v
  let v ← arrayScale 3 (1 / nrm2) s.v
  let bv ← arrayMatvec .ins 3 B3 v s.bv
  let (z, w) ← arraySolve 3 A3 bv s.z s.w
  let mu ← arrayDot 3 bv z
  let q ← arrayAxpyz 3 (-mu) bv z s.q
  let resid3 ← arrayNrm2 sqrt 3 q
  if lt resid3 then pure (true, ⟨v, bv, z, q, w⟩) else
  let v ← copyN 3 z v
  pure (false, ⟨v, bv, z, q, w⟩)

/-- the 3×3 iteration on the arrays `s` (of earlier content). src/esolver/lis_esolver_cg.c:282-299, 608-625 -/
def ritz3 (sqrt : R → R) (lt : R → Bool) (maxiter : ℕ) (A3 B3 : Arr R) (s : Ritz R) : Option (R × R × R) := do
  let v ← arraySetAll 3 1 s.v
  let s ← loopB 0 maxiter { s with v := v } (ritzStep sqrt lt A3 B3)
  let v0 ← s.v.rd 0
  let v1 ← s.v.rd 1
  let v2 ← s.v.rd 2
  pure (v0, v1, v2)

end ritz

end Lis
