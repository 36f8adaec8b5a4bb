import Verif.Model.Machine

/-!
# Krylov solvers (src/solver), double precision versions, as programs for the vector machine

Handles: `b = 0`, `x = 1`, `work[k] = k+2`.  `junk` is the uninitialised C variable `nrm2`.
Not modelled: timing, printing (`LIS_PRINT_OUT`), the quad/switch precision versions.
Scalar operations are arbitrary (no algebraic law is assumed), so floating point is covered; `maxiter ≤ 0` is
`maxiter = 0`.
-/

namespace Lis
variable {R S : Type}

/-- `LIS_CONV_COND_*`. include/lis.h:185-187 -/
inductive Conv where
  | nrm2R | nrm2B | nrm1B
  deriving DecidableEq

/-- the options and parameters a solver reads: `LIS_OPTIONS_MAXITER`, `_INITGUESS_ZEROS`, `_CONV_COND`,
`_OUTPUT & LIS_PRINT_MEM`, `LIS_PARAMS_RESID`, `_RESID_WEIGHT`, and `_INIT_SHADOW_RESID` with the random numbers. -/
structure Opts (R S : Type) where
  maxiter : ℕ
  initZero : Bool
  conv : Conv
  mem : Bool
  tol : S
  tolW : S
  shadow : Option (ℕ → R)

/-- `solver->retcode`, `solver->iter`, `solver->resid` when the solver returns -/
structure Out (S : Type) where
  ret : Err
  iter : ℕ
  resid : S

def hB : ℕ := 0
def hX : ℕ := 1
/-- `solver->work[k]` -/
abbrev wk (k : ℕ) : ℕ := k + 2

/-- scalars of type `LIS_REAL` -/
class RealOps (S : Type) extends Add S, Mul S, Div S, Zero S, One S, LE S where
  fabs : S → S
  decLE : DecidableLE S
  decEq : DecidableEq S

instance [RealOps S] : DecidableLE S := RealOps.decLE
instance [RealOps S] : DecidableEq S := RealOps.decEq

/-- `solver->bnrm` and `solver->tol` as set by `lis_solver_get_initial_residual` -/
structure Tols (S : Type) where
  bnrm : S
  tol : S

/-- `lis_solver_get_residual[conv](r,solver,&nrm2)`. src/solver/lis_solver.c:157-161,1790-1813 -/
def getResidual [Mul S] (c : Conv) (t : Tols S) (r : ℕ) : Prog R S S :=
  match c with
  | .nrm1B => vNrm1 r
  | _ => do
    let v ← vNrm2 r
    pure (v * t.bnrm)

/-- initial residual into vector `p`. src/solver/lis_solver.c:994-1035 (non-quad) -/
def initialP [One R] [Neg R] (zero : Bool) (p : ℕ) (h : hX ≠ p) : Prog R S Unit :=
  if zero then vCopy hB p
  else do
    mMatvec hX p h
    vXpay hB (-1) p

/-- norms and tolerances. src/solver/lis_solver.c:1037-1068: returns (`nrm2`, tolerances) -/
def initialNorms [RealOps S] (o : Opts R S) (p : ℕ) : Prog R S (S × Tols S) := do
  let (nrm2, bnrm2, tol) ← (match o.conv with
    | .nrm2R => do
      let v ← vNrm2 p
      pure (v, v, o.tol)
    | .nrm2B => do
      let v ← vNrm2 p
      let w ← vNrm2 hB
      pure (v, w, o.tol)
    | .nrm1B => do
      let v ← vNrm1 p
      let w ← vNrm1 hB
      pure (v, w, w * o.tolW + o.tol) : Prog R S (S × S × S))
  let bnrm : S := if bnrm2 = 0 then 1 else 1 / bnrm2
  pure (nrm2 * bnrm, ⟨bnrm, tol⟩)

/-- `lis_solver_get_initial_residual(solver,NULL,NULL,r,&bnrm2)`: `inl` = nonzero return (the caller returns
`LIS_SUCCESS`).  The `rhistory[0]` write happens only in quad precision. src/solver/lis_solver.c:957-1091 -/
def initialResidual [One R] [Neg R] [RealOps S] (o : Opts R S) (r : ℕ) (h : hX ≠ r) : Prog R S (Out S ⊕ Tols S) := do
  initialP o.initZero r h
  let (nrm2, t) ← initialNorms o r
  if nrm2 ≤ RealOps.fabs o.tol then pure (.inl ⟨.success, 1, nrm2⟩)
  else pure (.inr t)

/-- `lis_solver_set_shadowresidual`. src/solver/lis_solver.c:1817-1873 -/
def setShadow (o : Opts R S) (r0 rs0 : ℕ) : Prog R S Unit :=
  match o.shadow with
  | some f => vFill f rs0
  | none => do
    vCopy r0 rs0
    vConj rs0

/-- `for( iter=1; iter<=maxiter; iter++ )` with `return` inside: `fuel = maxiter+1-iter` -/
def forIter {σ : Type} (body : ℕ → σ → Prog R S (σ ⊕ Out S)) : ℕ → ℕ → σ → Prog R S (σ ⊕ Out S)
  | 0, _, s => pure (.inl s)
  | k + 1, i, s => do
    match ← body i s with
    | .inl s => forIter body k (i + 1) s
    | .inr o => pure (.inr o)

/-- the loop and what follows it in every solver: `retcode = LIS_MAXITER; iter = iter; resid = nrm2`.
The loop state is (scalars, nrm2). E.g. src/solver/lis_solver_cg.c:161,211-215 -/
def mainLoop {σ : Type} (maxiter : ℕ) (body : ℕ → σ × S → Prog R S ((σ × S) ⊕ Out S)) (s : σ × S) :
    Prog R S (Out S) := do
  match ← forIter body maxiter 1 s with
  | .inl s => pure ⟨.maxiter, maxiter + 1, s.2⟩
  | .inr o => pure o

/-- residual norm and its recording. E.g. src/solver/lis_solver_cg.c:191-196 -/
def checkResid [Mul S] (o : Opts R S) (t : Tols S) (iter r : ℕ) : Prog R S S := do
  let nrm2 ← getResidual o.conv t r
  if o.mem then setHist iter nrm2
  pure nrm2

section solvers
variable [Zero R] [One R] [Add R] [Neg R] [Mul R] [Div R] [Sub R] [Star R] [DecidableEq R] [RealOps S]

/-- one iteration of `lis_cg` (and of `lis_cocg`, which differs only in the inner product).
z=work[0], q=work[1], r=work[2], p=work[3]. src/solver/lis_solver_cg.c:161-210; lis_cocg: 673-732 -/
def cgBody (dot : ℕ → ℕ → Prog R S R) (o : Opts R S) (t : Tols S) (iter : ℕ) (s : R × S) :
    Prog R S ((R × S) ⊕ Out S) := do
  let rhoOld := s.1
  mPsolve (wk 2) (wk 0)
  let rho ← dot (wk 2) (wk 0)
  let beta := rho / rhoOld
  vXpay (wk 0) beta (wk 3)
  mMatvec (wk 3) (wk 1)
  let dotPq ← dot (wk 3) (wk 1)
  if dotPq = 0 then pure (.inr ⟨.breakdown, iter, s.2⟩)
  else do
    let alpha := rho / dotPq
    vAxpy alpha (wk 3) hX
    vAxpy (-alpha) (wk 1) (wk 2)
    let nrm2 ← checkResid o t iter (wk 2)
    if nrm2 ≤ t.tol then pure (.inr ⟨.success, iter, nrm2⟩)
    else pure (.inl (rho, nrm2))

/-- `lis_cg` / `lis_cocg`. src/solver/lis_solver_cg.c:118-216,630-739 -/
def cgProg (dot : ℕ → ℕ → Prog R S R) (junk : S) (o : Opts R S) : Prog R S (Out S) := do
  match ← initialResidual o (wk 2) (by decide) with
  | .inl out => pure out
  | .inr t => do
    vSetAll 0 (wk 3)
    mainLoop o.maxiter (cgBody dot o t) (1, junk)

def lisCg (junk : S) (o : Opts R S) : Prog R S (Out S) := cgProg vDot junk o
def lisCocg (junk : S) (o : Opts R S) : Prog R S (Out S) := cgProg vNhdot junk o

/-- one iteration of `lis_bicg`. r=work[0], rtld=1, z=2, ztld=3, p=4, ptld=5, q=2, qtld=3.
src/solver/lis_solver_bicg.c:186-270 -/
def bicgBody (o : Opts R S) (t : Tols S) (iter : ℕ) (s : R × S) : Prog R S ((R × S) ⊕ Out S) := do
  let rhoOld := s.1
  mPsolve (wk 0) (wk 2)
  mPsolveh (wk 1) (wk 3)
  let rho ← vDot (wk 1) (wk 2)
  if rho = 0 then pure (.inr ⟨.breakdown, iter, s.2⟩)
  else do
    let beta := rho / rhoOld
    vXpay (wk 2) beta (wk 4)
    mMatvec (wk 4) (wk 2)
    vXpay (wk 3) (star beta) (wk 5)
    mMatvech (wk 5) (wk 3)
    let tmpdot1 ← vDot (wk 5) (wk 2)
    if tmpdot1 = 0 then pure (.inr ⟨.breakdown, iter, s.2⟩)
    else do
      let alpha := rho / tmpdot1
      vAxpy alpha (wk 4) hX
      vAxpy (-alpha) (wk 2) (wk 0)
      let nrm2 ← checkResid o t iter (wk 0)
      if nrm2 ≤ t.tol then pure (.inr ⟨.success, iter, nrm2⟩)
      else do
        vAxpy (-(star alpha)) (wk 3) (wk 1)
        pure (.inl (rho, nrm2))

/-- `lis_bicg`. src/solver/lis_solver_bicg.c:138-277 -/
def lisBicg (junk : S) (o : Opts R S) : Prog R S (Out S) := do
  match ← initialResidual o (wk 0) (by decide) with
  | .inl out => pure out
  | .inr t => do
    setShadow o (wk 0) (wk 1)
    vSetAll 0 (wk 4)
    vSetAll 0 (wk 5)
    mainLoop o.maxiter (bicgBody o t) (1, junk)

/-- one iteration of `lis_cr` / `lis_cocr`. z=work[0], q=1, r=2, p=3, qtld=4, az=5.
src/solver/lis_solver_cg.c:866-933; lis_cocr: 1200-1267 -/
def crBody (dot : ℕ → ℕ → Prog R S R) (o : Opts R S) (t : Tols S) (iter : ℕ) (s : Unit × S) :
    Prog R S ((Unit × S) ⊕ Out S) := do
  mPsolve (wk 1) (wk 4)
  let rho ← dot (wk 4) (wk 1)
  if rho = 0 then pure (.inr ⟨.breakdown, iter, s.2⟩)
  else do
    let dotRq ← dot (wk 2) (wk 4)
    let alpha := dotRq / rho
    vAxpy alpha (wk 3) hX
    vAxpy (-alpha) (wk 1) (wk 2)
    let nrm2 ← checkResid o t iter (wk 2)
    if nrm2 ≤ t.tol then pure (.inr ⟨.success, iter, nrm2⟩)
    else do
      vAxpy (-alpha) (wk 4) (wk 0)
      mMatvec (wk 0) (wk 5)
      let dotZq ← dot (wk 5) (wk 4)
      let beta := -dotZq / rho
      vXpay (wk 0) beta (wk 3)
      vXpay (wk 5) beta (wk 1)
      pure (.inl ((), nrm2))

/-- `lis_cr` / `lis_cocr`. src/solver/lis_solver_cg.c:820-940,1154-1274 -/
def crProg (dot : ℕ → ℕ → Prog R S R) (junk : S) (o : Opts R S) : Prog R S (Out S) := do
  match ← initialResidual o (wk 2) (by decide) with
  | .inl out => pure out
  | .inr t => do
    mPsolve (wk 2) (wk 3)
    mMatvec (wk 3) (wk 1)
    vCopy (wk 3) (wk 0)
    mainLoop o.maxiter (crBody dot o t) ((), junk)

def lisCr (junk : S) (o : Opts R S) : Prog R S (Out S) := crProg vDot junk o
def lisCocr (junk : S) (o : Opts R S) : Prog R S (Out S) := crProg vNhdot junk o

/-- one iteration of `lis_bicr`. r=work[0], rtld=1, z=2, ztld=3, p=4, ptld=5, ap=6, az=7, map=8, aptld=9.
src/solver/lis_solver_bicg.c:840-919 -/
def bicrBody (o : Opts R S) (t : Tols S) (iter : ℕ) (s : R × S) : Prog R S ((R × S) ⊕ Out S) := do
  let rhoOld := s.1
  mMatvech (wk 5) (wk 9)
  mPsolve (wk 6) (wk 8)
  let tmpdot1 ← vDot (wk 9) (wk 8)
  if tmpdot1 = 0 then pure (.inr ⟨.breakdown, iter, s.2⟩)
  else do
    let alpha := rhoOld / tmpdot1
    vAxpy alpha (wk 4) hX
    vAxpy (-alpha) (wk 6) (wk 0)
    let nrm2 ← checkResid o t iter (wk 0)
    if nrm2 ≤ t.tol then pure (.inr ⟨.success, iter, nrm2⟩)
    else do
      vAxpy (-(star alpha)) (wk 9) (wk 1)
      vAxpy (-alpha) (wk 8) (wk 2)
      mPsolveh (wk 1) (wk 3)
      mMatvec (wk 2) (wk 7)
      let rho ← vDot (wk 3) (wk 7)
      if rho = 0 then pure (.inr ⟨.breakdown, iter, nrm2⟩)
      else do
        let beta := rho / rhoOld
        vXpay (wk 2) beta (wk 4)
        vXpay (wk 3) (star beta) (wk 5)
        vXpay (wk 7) beta (wk 6)
        pure (.inl (rho, nrm2))

/-- `lis_bicr`. src/solver/lis_solver_bicg.c:788-926 -/
def lisBicr (junk : S) (o : Opts R S) : Prog R S (Out S) := do
  match ← initialResidual o (wk 0) (by decide) with
  | .inl out => pure out
  | .inr t => do
    setShadow o (wk 0) (wk 1)
    mPsolve (wk 0) (wk 2)
    mPsolveh (wk 1) (wk 3)
    vCopy (wk 2) (wk 4)
    vCopy (wk 3) (wk 5)
    mMatvec (wk 2) (wk 6)
    let rhoOld ← vDot (wk 3) (wk 6)
    mainLoop o.maxiter (bicrBody o t) (rhoOld, junk)

/-- one iteration of `lis_cgs`. r=work[0], rtld=1, p=2, phat=3, q=4, qhat=u=5, uhat=vhat=6.
src/solver/lis_solver_cgs.c:183-269 -/
def cgsBody (o : Opts R S) (t : Tols S) (iter : ℕ) (s : R × S) : Prog R S ((R × S) ⊕ Out S) := do
  let rhoOld := s.1
  let rho ← vDot (wk 1) (wk 0)
  if rho = 0 then pure (.inr ⟨.breakdown, iter, s.2⟩)
  else do
    let beta := rho / rhoOld
    vAxpyz beta (wk 4) (wk 0) (wk 5)
    vXpay (wk 4) beta (wk 2)
    vXpay (wk 5) beta (wk 2)
    mPsolve (wk 2) (wk 3)
    mMatvec (wk 3) (wk 6)
    let tmpdot1 ← vDot (wk 1) (wk 6)
    if tmpdot1 = 0 then pure (.inr ⟨.breakdown, iter, s.2⟩)
    else do
      let alpha := rho / tmpdot1
      vAxpyz (-alpha) (wk 6) (wk 5) (wk 4)
      vAxpyz 1 (wk 5) (wk 4) (wk 3)
      mPsolve (wk 3) (wk 6)
      vAxpy alpha (wk 6) hX
      mMatvec (wk 6) (wk 5)
      vAxpy (-alpha) (wk 5) (wk 0)
      let nrm2 ← checkResid o t iter (wk 0)
      if nrm2 ≤ t.tol then pure (.inr ⟨.success, iter, nrm2⟩)
      else pure (.inl (rho, nrm2))

/-- `lis_cgs`. src/solver/lis_solver_cgs.c:134-276 -/
def lisCgs (junk : S) (o : Opts R S) : Prog R S (Out S) := do
  match ← initialResidual o (wk 0) (by decide) with
  | .inl out => pure out
  | .inr t => do
    setShadow o (wk 0) (wk 1)
    vSetAll 0 (wk 4)
    vSetAll 0 (wk 2)
    mainLoop o.maxiter (cgsBody o t) (1, junk)

/-- one iteration of `lis_crs`. r=work[0], rtld=1, p=2, z=u=uq=3, q=ap=4, map=auq=5.
src/solver/lis_solver_cgs.c:855-931 -/
def crsBody (o : Opts R S) (t : Tols S) (iter : ℕ) (s : R × S) : Prog R S ((R × S) ⊕ Out S) := do
  let rhoOld := s.1
  mPsolve (wk 0) (wk 3)
  let rho ← vDot (wk 1) (wk 3)
  if rho = 0 then pure (.inr ⟨.breakdown, iter, s.2⟩)
  else do
    let beta := rho / rhoOld
    vAxpyz beta (wk 4) (wk 3) (wk 3)
    vXpay (wk 4) beta (wk 2)
    vXpay (wk 3) beta (wk 2)
    mMatvec (wk 2) (wk 4)
    mPsolve (wk 4) (wk 5)
    let tmpdot1 ← vDot (wk 1) (wk 5)
    if tmpdot1 = 0 then pure (.inr ⟨.breakdown, iter, s.2⟩)
    else do
      let alpha := rho / tmpdot1
      vAxpyz (-alpha) (wk 5) (wk 3) (wk 4)
      vAxpyz 1 (wk 3) (wk 4) (wk 3)
      mMatvec (wk 3) (wk 5)
      vAxpy alpha (wk 3) hX
      vAxpy (-alpha) (wk 5) (wk 0)
      let nrm2 ← checkResid o t iter (wk 0)
      if nrm2 ≤ t.tol then pure (.inr ⟨.success, iter, nrm2⟩)
      else pure (.inl (rho, nrm2))

/-- `lis_crs`. src/solver/lis_solver_cgs.c:805-938 -/
def lisCrs (junk : S) (o : Opts R S) : Prog R S (Out S) := do
  match ← initialResidual o (wk 0) (by decide) with
  | .inl out => pure out
  | .inr t => do
    setShadow o (wk 0) (wk 2)
    mMatvech (wk 2) (wk 1)
    vSetAll 0 (wk 4)
    vSetAll 0 (wk 2)
    mainLoop o.maxiter (crsBody o t) (1, junk)

/-- one iteration of `lis_bicgstab`; scalars (rho_old, alpha, omega).
rtld=work[0], r=s=1, t=2, p=3, v=4, phat=5, shat=6. src/solver/lis_solver_bicgstab.c:187-308 -/
def bicgstabBody (o : Opts R S) (t : Tols S) (iter : ℕ) (s : (R × R × R) × S) :
    Prog R S (((R × R × R) × S) ⊕ Out S) := do
  let rho ← vDot (wk 0) (wk 1)
  if rho = 0 then pure (.inr ⟨.breakdown, iter, s.2⟩)
  else do
    if iter = 1 then vCopy (wk 1) (wk 3)
    else do
      let beta := (rho / s.1.1) * (s.1.2.1 / s.1.2.2)
      vAxpy (-s.1.2.2) (wk 4) (wk 3)
      vXpay (wk 1) beta (wk 3)
    mPsolve (wk 3) (wk 5)
    mMatvec (wk 5) (wk 4)
    let tmpdot1 ← vDot (wk 0) (wk 4)
    let alpha := rho / tmpdot1
    vAxpy (-alpha) (wk 4) (wk 1)
    let nrm2 ← getResidual o.conv t (wk 1)
    if nrm2 ≤ t.tol then do
      if o.mem then setHist iter nrm2
      vAxpy alpha (wk 5) hX
      pure (.inr ⟨.success, iter, nrm2⟩)
    else do
      mPsolve (wk 1) (wk 6)
      mMatvec (wk 6) (wk 2)
      let tmpdot1 ← vDot (wk 2) (wk 1)
      let tmpdot2 ← vDot (wk 2) (wk 2)
      let omega := tmpdot1 / tmpdot2
      vAxpy alpha (wk 5) hX
      vAxpy omega (wk 6) hX
      vAxpy (-omega) (wk 2) (wk 1)
      let nrm2 ← checkResid o t iter (wk 1)
      if nrm2 ≤ t.tol then pure (.inr ⟨.success, iter, nrm2⟩)
      else if omega = 0 then pure (.inr ⟨.breakdown, iter, nrm2⟩)
      else pure (.inl ((rho, alpha, omega), nrm2))

/-- `lis_bicgstab`. src/solver/lis_solver_bicgstab.c:137-315 -/
def lisBicgstab (junk : S) (o : Opts R S) : Prog R S (Out S) := do
  vSetAll 0 (wk 3)
  vSetAll 0 (wk 5)
  vSetAll 0 (wk 1)
  vSetAll 0 (wk 6)
  match ← initialResidual o (wk 1) (by decide) with
  | .inl out => pure out
  | .inr t => do
    setShadow o (wk 1) (wk 0)
    mainLoop o.maxiter (bicgstabBody o t) ((1, 1, 1), junk)

/-- one iteration of `lis_bicrstab`. rtld=work[0], r=1, s=2, ms=3, ams=4, p=5, ap=6, map=7, z=8.
src/solver/lis_solver_bicgstab.c:1000-1091 -/
def bicrstabBody (o : Opts R S) (t : Tols S) (iter : ℕ) (s : R × S) : Prog R S ((R × S) ⊕ Out S) := do
  let rhoOld := s.1
  mMatvec (wk 5) (wk 6)
  mPsolve (wk 6) (wk 7)
  let tmpdot1 ← vDot (wk 0) (wk 7)
  let alpha := rhoOld / tmpdot1
  vAxpyz (-alpha) (wk 6) (wk 1) (wk 2)
  let nrm2 ← getResidual o.conv t (wk 2)
  if nrm2 ≤ t.tol then do
    if o.mem then setHist iter nrm2
    vAxpy alpha (wk 5) hX
    pure (.inr ⟨.success, iter, nrm2⟩)
  else do
    vAxpyz (-alpha) (wk 7) (wk 8) (wk 3)
    mMatvec (wk 3) (wk 4)
    let tmpdot1 ← vDot (wk 4) (wk 2)
    let tmpdot2 ← vDot (wk 4) (wk 4)
    let omega := tmpdot1 / tmpdot2
    vAxpy alpha (wk 5) hX
    vAxpy omega (wk 3) hX
    vAxpyz (-omega) (wk 4) (wk 2) (wk 1)
    let nrm2 ← checkResid o t iter (wk 1)
    if nrm2 ≤ t.tol then pure (.inr ⟨.success, iter, nrm2⟩)
    else do
      mPsolve (wk 1) (wk 8)
      let rho ← vDot (wk 0) (wk 8)
      if rho = 0 then pure (.inr ⟨.breakdown, iter, nrm2⟩)
      else do
        let beta := (rho / rhoOld) * (alpha / omega)
        vAxpy (-omega) (wk 7) (wk 5)
        vXpay (wk 8) beta (wk 5)
        pure (.inl (rho, nrm2))

/-- `lis_bicrstab`. src/solver/lis_solver_bicgstab.c:951-1098 -/
def lisBicrstab (junk : S) (o : Opts R S) : Prog R S (Out S) := do
  match ← initialResidual o (wk 1) (by decide) with
  | .inl out => pure out
  | .inr t => do
    setShadow o (wk 1) (wk 5)
    mMatvech (wk 5) (wk 0)
    mPsolve (wk 1) (wk 8)
    vCopy (wk 8) (wk 5)
    let rhoOld ← vDot (wk 0) (wk 8)
    mainLoop o.maxiter (bicrstabBody o t) (rhoOld, junk)

/-- the 2×2 minimisation shared by GPBiCG and BiCGSafe: `(qsi, eta)`.
src/solver/lis_solver_gpbicg.c:264-279; lis_solver_bicgsafe.c:218-233 -/
def qsiEta (iter y am t : ℕ) : Prog R S (R × R) := do
  let d0 ← vDot y y
  let d1 ← vDot am t
  let d2 ← vDot y t
  let d3 ← vDot am y
  let d4 ← vDot am am
  if iter = 1 then pure (d1 / d4, 0)
  else
    let tmp := d4 * d0 - d3 * d3
    pure ((d0 * d1 - d2 * d3) / tmp, (d4 * d2 - d3 * d1) / tmp)

/-- one iteration of `lis_gpbicg`; scalars (rho_old, beta).  rtld=work[0], r=1, mr=2, p=3, ap=4, map=5, t=6, mt=7,
amt=8, u=9, y=10, w=11, z=12, mt_old=13. src/solver/lis_solver_gpbicg.c:204-344 -/
def gpbicgBody (o : Opts R S) (t : Tols S) (iter : ℕ) (s : (R × R) × S) : Prog R S (((R × R) × S) ⊕ Out S) := do
  let rhoOld := s.1.1
  let beta := s.1.2
  mMatvec (wk 3) (wk 4)
  mPsolve (wk 4) (wk 5)
  let tmpdot0 ← vDot (wk 0) (wk 4)
  if tmpdot0 = 0 then pure (.inr ⟨.breakdown, iter, s.2⟩)
  else do
    let alpha := rhoOld / tmpdot0
    vAxpyz (-1) (wk 11) (wk 4) (wk 10)
    vXpay (wk 6) alpha (wk 10)
    vAxpy (-1) (wk 1) (wk 10)
    vAxpyz (-alpha) (wk 4) (wk 1) (wk 6)
    let nrm2 ← getResidual o.conv t (wk 6)
    if nrm2 ≤ t.tol then do
      if o.mem then setHist iter nrm2
      vAxpy alpha (wk 3) hX
      pure (.inr ⟨.success, iter, nrm2⟩)
    else do
      vAxpyz (-alpha) (wk 5) (wk 2) (wk 7)
      mMatvec (wk 7) (wk 8)
      let (qsi, eta) ← qsiEta iter (wk 10) (wk 8) (wk 6)
      vXpay (wk 13) beta (wk 9)
      vAxpy (-1) (wk 2) (wk 9)
      vScale eta (wk 9)
      vAxpy qsi (wk 5) (wk 9)
      vScale eta (wk 12)
      vAxpy qsi (wk 2) (wk 12)
      vAxpy (-alpha) (wk 9) (wk 12)
      vAxpy alpha (wk 3) hX
      vAxpy 1 (wk 12) hX
      vAxpyz (-qsi) (wk 8) (wk 6) (wk 1)
      vAxpy (-eta) (wk 10) (wk 1)
      let nrm2 ← checkResid o t iter (wk 1)
      if nrm2 ≤ t.tol then pure (.inr ⟨.success, iter, nrm2⟩)
      else do
        mPsolve (wk 1) (wk 2)
        let rho ← vDot (wk 0) (wk 1)
        if rho = 0 then pure (.inr ⟨.breakdown, iter, nrm2⟩)
        else do
          let beta := (rho / rhoOld) * (alpha / qsi)
          vAxpyz beta (wk 4) (wk 8) (wk 11)
          vAxpy (-1) (wk 9) (wk 3)
          vXpay (wk 2) beta (wk 3)
          vCopy (wk 7) (wk 13)
          pure (.inl ((rho, beta), nrm2))

/-- `lis_gpbicg`. src/solver/lis_solver_gpbicg.c:145-351 -/
def lisGpbicg (junk : S) (o : Opts R S) : Prog R S (Out S) := do
  match ← initialResidual o (wk 1) (by decide) with
  | .inl out => pure out
  | .inr t => do
    setShadow o (wk 1) (wk 0)
    mPsolve (wk 1) (wk 3)
    let rhoOld ← vDot (wk 0) (wk 1)
    vSetAll 0 (wk 6)
    vSetAll 0 (wk 11)
    mainLoop o.maxiter (gpbicgBody o t) ((rhoOld, 0), junk)

/-- one iteration of `lis_bicgsafe`; scalars (rho_old, beta).  rtld=work[0], r=1, mr=2, amr=3, p=4, ap=5, t=6, mt=7,
y=8, u=9, z=10, au=11. src/solver/lis_solver_bicgsafe.c:205-315 -/
def bicgsafeBody (o : Opts R S) (t : Tols S) (iter : ℕ) (s : (R × R) × S) : Prog R S (((R × R) × S) ⊕ Out S) := do
  let rhoOld := s.1.1
  let beta := s.1.2
  let tmpdot0 ← vDot (wk 0) (wk 5)
  let alpha := rhoOld / tmpdot0
  let (qsi, eta) ← qsiEta iter (wk 8) (wk 3) (wk 1)
  vCopy (wk 8) (wk 6)
  vScale eta (wk 6)
  vAxpy qsi (wk 5) (wk 6)
  mPsolve (wk 6) (wk 7)
  vXpay (wk 7) (eta * beta) (wk 9)
  mMatvec (wk 9) (wk 11)
  vScale eta (wk 10)
  vAxpy qsi (wk 2) (wk 10)
  vAxpy (-alpha) (wk 9) (wk 10)
  vScale eta (wk 8)
  vAxpy qsi (wk 3) (wk 8)
  vAxpy (-alpha) (wk 11) (wk 8)
  vAxpy alpha (wk 4) hX
  vAxpy 1 (wk 10) hX
  vAxpy (-alpha) (wk 5) (wk 1)
  vAxpy (-1) (wk 8) (wk 1)
  let nrm2 ← checkResid o t iter (wk 1)
  if nrm2 ≤ t.tol then pure (.inr ⟨.success, iter, nrm2⟩)
  else do
    let rho ← vDot (wk 0) (wk 1)
    if rho = 0 then pure (.inr ⟨.breakdown, iter, nrm2⟩)
    else do
      let beta := (rho / rhoOld) * (alpha / qsi)
      mPsolve (wk 1) (wk 2)
      mMatvec (wk 2) (wk 3)
      vAxpy (-1) (wk 9) (wk 4)
      vXpay (wk 2) beta (wk 4)
      vAxpy (-1) (wk 11) (wk 5)
      vXpay (wk 3) beta (wk 5)
      pure (.inl ((rho, beta), nrm2))

/-- `lis_bicgsafe`. src/solver/lis_solver_bicgsafe.c:145-322 -/
def lisBicgsafe (junk : S) (o : Opts R S) : Prog R S (Out S) := do
  match ← initialResidual o (wk 1) (by decide) with
  | .inl out => pure out
  | .inr t => do
    setShadow o (wk 1) (wk 0)
    mPsolve (wk 1) (wk 2)
    mMatvec (wk 2) (wk 3)
    let rhoOld ← vDot (wk 0) (wk 1)
    vCopy (wk 3) (wk 5)
    vCopy (wk 2) (wk 4)
    mainLoop o.maxiter (bicgsafeBody o t) ((rhoOld, 0), junk)

/-- one iteration of `lis_gpbicr`; scalars (rho_old, beta); vectors as for `lis_gpbicg`.
src/solver/lis_solver_gpbicg.c:1407-1546 -/
def gpbicrBody (o : Opts R S) (t : Tols S) (iter : ℕ) (s : (R × R) × S) : Prog R S (((R × R) × S) ⊕ Out S) := do
  let rhoOld := s.1.1
  let beta := s.1.2
  mMatvec (wk 3) (wk 4)
  mPsolve (wk 4) (wk 5)
  let tmpdot0 ← vDot (wk 0) (wk 5)
  if tmpdot0 = 0 then pure (.inr ⟨.breakdown, iter, s.2⟩)
  else do
    let alpha := rhoOld / tmpdot0
    vAxpyz (-1) (wk 11) (wk 4) (wk 10)
    vXpay (wk 6) alpha (wk 10)
    vAxpy (-1) (wk 1) (wk 10)
    vAxpyz (-alpha) (wk 4) (wk 1) (wk 6)
    let nrm2 ← getResidual o.conv t (wk 6)
    if nrm2 ≤ t.tol then do
      if o.mem then setHist iter nrm2
      vAxpy alpha (wk 3) hX
      pure (.inr ⟨.success, iter, nrm2⟩)
    else do
      vAxpyz (-alpha) (wk 5) (wk 2) (wk 7)
      mMatvec (wk 7) (wk 8)
      let (qsi, eta) ← qsiEta iter (wk 10) (wk 8) (wk 6)
      vXpay (wk 13) beta (wk 9)
      vAxpy (-1) (wk 2) (wk 9)
      vScale eta (wk 9)
      vAxpy qsi (wk 5) (wk 9)
      vScale eta (wk 12)
      vAxpy qsi (wk 2) (wk 12)
      vAxpy (-alpha) (wk 9) (wk 12)
      vAxpy alpha (wk 3) hX
      vAxpy 1 (wk 12) hX
      vAxpyz (-qsi) (wk 8) (wk 6) (wk 1)
      vAxpy (-eta) (wk 10) (wk 1)
      let nrm2 ← checkResid o t iter (wk 1)
      if nrm2 ≤ t.tol then pure (.inr ⟨.success, iter, nrm2⟩)
      else do
        mPsolve (wk 1) (wk 2)
        let rho ← vDot (wk 0) (wk 2)
        if rho = 0 then pure (.inr ⟨.breakdown, iter, nrm2⟩)
        else do
          let beta := (rho / rhoOld) * (alpha / qsi)
          vAxpyz beta (wk 4) (wk 8) (wk 11)
          vAxpy (-1) (wk 9) (wk 3)
          vXpay (wk 2) beta (wk 3)
          vCopy (wk 7) (wk 13)
          pure (.inl ((rho, beta), nrm2))

/-- `lis_gpbicr`.  `mr = work[2]` is not set before the first iteration reads it.
src/solver/lis_solver_gpbicg.c:1349-1553 -/
def lisGpbicr (junk : S) (o : Opts R S) : Prog R S (Out S) := do
  match ← initialResidual o (wk 1) (by decide) with
  | .inl out => pure out
  | .inr t => do
    setShadow o (wk 1) (wk 3)
    mMatvech (wk 3) (wk 0)
    mPsolve (wk 1) (wk 3)
    let rhoOld ← vDot (wk 0) (wk 3)
    vSetAll 0 (wk 6)
    vSetAll 0 (wk 11)
    mainLoop o.maxiter (gpbicrBody o t) ((rhoOld, 0), junk)

/-- one iteration of `lis_bicrsafe`; scalars (rho_old, beta).  rtld=work[0], r=1, mr=2, amr=3, p=4, ap=5, map=6, my=7,
y=8, u=9, z=10, au=11, artld=12. src/solver/lis_solver_bicgsafe.c:1109-1222 -/
def bicrsafeBody (o : Opts R S) (t : Tols S) (iter : ℕ) (s : (R × R) × S) : Prog R S (((R × R) × S) ⊕ Out S) := do
  let rhoOld := s.1.1
  let beta := s.1.2
  mPsolve (wk 5) (wk 6)
  let tmpdot0 ← vDot (wk 12) (wk 6)
  let alpha := rhoOld / tmpdot0
  let (qsi, eta) ← qsiEta iter (wk 8) (wk 3) (wk 1)
  vScale (eta * beta) (wk 9)
  vAxpy qsi (wk 6) (wk 9)
  vAxpy eta (wk 7) (wk 9)
  mMatvec (wk 9) (wk 11)
  vScale eta (wk 10)
  vAxpy qsi (wk 2) (wk 10)
  vAxpy (-alpha) (wk 9) (wk 10)
  vScale eta (wk 8)
  vAxpy qsi (wk 3) (wk 8)
  vAxpy (-alpha) (wk 11) (wk 8)
  mPsolve (wk 8) (wk 7)
  vAxpy alpha (wk 4) hX
  vAxpy 1 (wk 10) hX
  vAxpy (-alpha) (wk 5) (wk 1)
  vAxpy (-1) (wk 8) (wk 1)
  let nrm2 ← checkResid o t iter (wk 1)
  if nrm2 ≤ t.tol then pure (.inr ⟨.success, iter, nrm2⟩)
  else do
    vAxpy (-alpha) (wk 6) (wk 2)
    vAxpy (-1) (wk 7) (wk 2)
    mMatvec (wk 2) (wk 3)
    let rho ← vDot (wk 0) (wk 3)
    if rho = 0 then pure (.inr ⟨.breakdown, iter, nrm2⟩)
    else do
      let beta := (rho / rhoOld) * (alpha / qsi)
      vAxpy (-1) (wk 9) (wk 4)
      vXpay (wk 2) beta (wk 4)
      vAxpy (-1) (wk 11) (wk 5)
      vXpay (wk 3) beta (wk 5)
      pure (.inl ((rho, beta), nrm2))

/-- `lis_bicrsafe`. src/solver/lis_solver_bicgsafe.c:1048-1229 -/
def lisBicrsafe (junk : S) (o : Opts R S) : Prog R S (Out S) := do
  match ← initialResidual o (wk 1) (by decide) with
  | .inl out => pure out
  | .inr t => do
    setShadow o (wk 1) (wk 0)
    mMatvech (wk 0) (wk 12)
    mPsolve (wk 1) (wk 2)
    mMatvec (wk 2) (wk 3)
    let rhoOld ← vDot (wk 0) (wk 3)
    vCopy (wk 3) (wk 5)
    vCopy (wk 2) (wk 4)
    mainLoop o.maxiter (bicrsafeBody o t) ((rhoOld, 0), junk)

end solvers
end Lis
