import Verif.Model.EsolverCg

/-!
# Subspace iteration (src/esolver/lis_esolver_si.c, `lis_esi`)

A program over the calls of `Model/Esolver.lean`. `esolver->x = 0`, `esolver->work[k] = k+1` (there are `ss+4` of them,
lis_esolver_si.c:68,97), so `r = 1`, `q = 2`, `v[j] = work[2+j] = 3+j`; `esolver->evector[j] = ss+5+j`.

Parameters: `jt`, `jr` are the uninitialised `theta`, `resid`, `lt` is the comparison `<` of `LIS_REAL`, `perr j` the return code
of `lis_precon_create` for mode `j`. `emaxiter ≤ 0` is `emaxiter = 0`; `ss` is positive (for `ss = 0` an eigenvector that was never
created is copied in line 354).
Not modelled: timing, printing, quad precision, failure of `lis_vector_duplicate` (its result is not looked at),
the solver and preconditioner objects (the preconditioner of every mode but the last is never destroyed).
-/

namespace Lis
variable {R S : Type}

/-- the inner eigensolver, as far as `lis_esi` distinguishes. src/esolver/lis_esolver_si.c:261-284 -/
inductive SiInner
  /-- `LIS_ESOLVER_PI` -/
  | pi
  /-- `LIS_ESOLVER_II` -/
  | ii
  /-- any other: no case of the switches applies -/
  | other
  deriving DecidableEq

/-- what the function leaves: the value returned, and for every mode finished `iter[j]`, `resid[j]`, `evalue[j]` if set -/
structure SiOut (R S : Type) where
  ret : Err
  modes : List (Option (ℕ × S × R))

section
variable [Zero R] [One R] [Add R] [Neg R] [Mul R] [Div R] [DecidableEq R] [RealOps S] [EigOps R S]

/-- `for(k=1;k<j;k++){ lis_vector_dot(v[j],v[k],&dot); lis_vector_axpy(-dot,v[k],v[j]); }`, the first `k` passes.
src/esolver/lis_esolver_si.c:253-257 -/
def siOrth (j : ℕ) : ℕ → EProg R S Unit
  | 0 => pure ()
  | k + 1 => do
    siOrth j k
    let dot ← eDot (3 + j) (3 + (k + 1))
    eAxpy (-dot) (3 + (k + 1)) (3 + j)

/-- the switch "kernel" with the error of the linear solver. src/esolver/lis_esolver_si.c:260-284 -/
def siKernel (inner : SiInner) (j : ℕ) : EProg R S Err :=
  match inner with
  | .pi => do
    eMatvec false (3 + j) 1 (by omega)
    pure .success
  | .ii => eLin false (3 + j) 1 (by omega)
  | .other => pure .success

/-- `if( j==1 ){ if( output & LIS_PRINT_MEM ) rhistory[iter] = resid; … }`. src/esolver/lis_esolver_si.c:308-313 -/
def siRecord (o : EOpts R S) (j iter : ℕ) (resid : S) : EProg R S Unit :=
  if j = 1 then eRecord o iter resid else pure ()

/-- one iteration of mode `j`; local variables err, theta, resid; the result says whether the loop is left (because of an
error or of the residual). src/esolver/lis_esolver_si.c:246-318 -/
def siBody (lt : S → S → Bool) (inner : SiInner) (o : EOpts R S) (j iter : ℕ) (s : Err × R × S) :
    EProg R S (Bool × (Err × R × S)) := do
  siOrth j (j - 1)
  let err ← siKernel inner j
  if err ≠ .success then pure (true, (err, s.2)) else
  let nrm2 ← (eNrm2 1 : EProg R S S)
  let theta ← eDot (3 + j) 1
  eAxpyz (-theta) (3 + j) 1 2
  let nq ← (eNrm2 2 : EProg R S S)
  let resid := nq / EigOps.fabs theta
  eScale (EigOps.ofS (1 / nrm2)) 1
  eCopy 1 (3 + j)
  siRecord o j iter resid
  pure (lt resid o.tol, (.success, theta, resid))

/-- the eigenvalue stored for `theta`. src/esolver/lis_esolver_si.c:320-332 -/
def siValue (inner : SiInner) (o : EOpts R S) (iter : ℕ) (theta : R) (resid : S) : Option (ℕ × S × R) :=
  match inner with
  | .pi => some (iter, resid, theta + o.sigma)
  | .ii => some (iter, resid, 1 / theta + o.sigma)
  | .other => none

/-- the return code of creating the preconditioner (inverse iteration only). src/esolver/lis_esolver_si.c:229-240 -/
def siPrecon (inner : SiInner) (perr : ℕ → Err) (j : ℕ) : Err := if inner = .ii then perr j else .success

/-- mode `j ≥ 1`: error, number of iterations, theta and resid after it. src/esolver/lis_esolver_si.c:225-334 -/
def siMode (lt : S → S → Bool) (inner : SiInner) (perr : ℕ → Err) (ss : ℕ) (o : EOpts R S) (j : ℕ) (st : R × S) :
    EProg R S (Err × ℕ × R × S) := do
  eCopy 1 (3 + j)
  if siPrecon inner perr j ≠ .success then pure (siPrecon inner perr j, 0, st) else
  let r ← eWhile (siBody lt inner o j) o.maxiter 0 (.success, st)
  if r.2.1 ≠ .success then pure (r.2.1, r.1, r.2.2) else
  eCopy (3 + j) (ss + 4 + j)
  pure (.success, r.1, r.2.2)

/-- the loop over the modes: `fuel = ss-j` modes to go, `j` done. src/esolver/lis_esolver_si.c:219-351 -/
def siModes (lt : S → S → Bool) (inner : SiInner) (perr : ℕ → Err) (ss : ℕ) (o : EOpts R S) :
    ℕ → ℕ → List (Option (ℕ × S × R)) → R × S → EProg R S (SiOut R S)
  | 0, _, l, _ => pure ⟨.success, l⟩
  | k + 1, j, l, st => do
    let r ← siMode lt inner perr ss o (j + 1) st
    if r.1 ≠ .success then pure ⟨r.1, l⟩ else
    siModes lt inner perr ss o k (j + 1) (l ++ [siValue inner o r.2.1 r.2.2.1 r.2.2.2]) r.2.2

/-- what follows the loop over the modes. src/esolver/lis_esolver_si.c:353-367 -/
def siEnd (ss : ℕ) (o : EOpts R S) (r : SiOut R S) : EProg R S (SiOut R S) :=
  if r.ret ≠ .success then pure r else do
    eShiftIf o (-o.sigma)
    eCopy (ss + 5) eV
    pure r

/-- `lis_esi`. Only the option `-shift` is looked at, not `esolver->ishift`. src/esolver/lis_esolver_si.c:137-368 -/
def lisEsi (lt : S → S → Bool) (inner : SiInner) (perr : ℕ → Err) (ss : ℕ) (jt : R) (jr : S) (o : EOpts R S) :
    EProg R S (SiOut R S) := do
  let o : EOpts R S := { o with ishift := 0 }
  eSetAll 1 1
  eNormalize 1
  eShiftIf o o.sigma
  let r ← siModes lt inner perr ss o ss 0 [] (jt, jr)
  siEnd ss o r
end
end Lis
