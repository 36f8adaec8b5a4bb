import Verif.Model.EsolverSi

/-!
# Generalized subspace iteration (src/esolver/lis_esolver_si.c:453-719, `lis_egsi`)

A program over the calls of `Model/Esolver.lean`. `esolver->x = 0`, `esolver->work[k] = k+1` (there are `ss+4` of them,
lis_esolver_si.c:415), so `y = 1`, `w = 2`, `q = 3`, `v[j] = work[3+j] = 4+j`; `esolver->evector[j] = ss+5+j`.

Parameters: `jt`, `jr` are the uninitialised `theta`, `resid`, `lt` is the comparison `<` of `LIS_REAL`, `perrA j`, `perrB j` the
return codes of `lis_precon_create` for `A` and `B` in mode `j`. `emaxiter ≤ 0` is `emaxiter = 0`; `ss` is positive.
Not modelled: timing, printing, quad precision, failure of `lis_vector_duplicate` (its result is not looked at), failure of
`lis_solver_set_optionC`, the solver and preconditioner objects (that the linear solver for `A` is given the preconditioner of
`B` is part of the function `lin` of the kit).
-/

namespace Lis
variable {R S : Type}

/-- the inner eigensolver, as far as `lis_egsi` distinguishes. src/esolver/lis_esolver_si.c:586-629 -/
inductive SgInner
  /-- `LIS_ESOLVER_GPI` -/
  | gpi
  /-- `LIS_ESOLVER_GII` -/
  | gii
  /-- any other: no case of the switches applies -/
  | other
  deriving DecidableEq

section
variable [Zero R] [One R] [Add R] [Neg R] [Mul R] [Div R] [DecidableEq R] [RealOps S] [EigOps R S]

/-- `for(k=1;k<j;k++){ lis_vector_dot(v[j],v[k],&dot); lis_vector_axpy(-dot,v[k],v[j]); }`, the first `k` passes: the plain
inner product, not that of `B`. src/esolver/lis_esolver_si.c:578-582 -/
def sgOrth (j : ℕ) : ℕ → EProg R S Unit
  | 0 => pure ()
  | k + 1 => do
    sgOrth j k
    let dot ← eDot (4 + j) (4 + (k + 1))
    eAxpy (-dot) (4 + (k + 1)) (4 + j)

/-- one case of the switch "kernel": `m = false`: w = A v, scaled, B y = w; `m = true`: w = B v, A y = w.
src/esolver/lis_esolver_si.c:587-605, 609-627 -/
def sgApply (m : Bool) (j : ℕ) : EProg R S Err := do
  eMatvec m (4 + j) 2 (by omega)
  let e2 ← eDot (4 + j) 2
  let eta : R := EigOps.sqrt S e2
  eScale (1 / eta) (4 + j)
  eScale (1 / eta) 2
  eLin (!m) 2 1 (by omega)

/-- the switch "kernel" with the error of the linear solver. src/esolver/lis_esolver_si.c:585-629 -/
def sgKernel (inner : SgInner) (j : ℕ) : EProg R S Err :=
  match inner with
  | .gpi => sgApply false j
  | .gii => sgApply true j
  | .other => pure .success

/-- one iteration of mode `j`; local variables err, theta, resid; the result says whether the loop is left (because of an
error or of the residual). src/esolver/lis_esolver_si.c:572-666 -/
def sgBody (lt : S → S → Bool) (inner : SgInner) (o : EOpts R S) (j iter : ℕ) (s : Err × R × S) :
    EProg R S (Bool × (Err × R × S)) := do
  sgOrth j (j - 1)
  let err ← sgKernel inner j
  if err ≠ .success then pure (true, (err, s.2)) else
  let theta ← eDot 2 1
  eAxpyz (-theta) (4 + j) 1 3
  let nq ← (eNrm2 3 : EProg R S S)
  let resid := nq / EigOps.fabs theta
  eNormalize 1
  eCopy 1 (4 + j)
  siRecord o j iter resid
  pure (lt resid o.tol, (.success, theta, resid))

/-- the eigenvalue stored for `theta`. src/esolver/lis_esolver_si.c:668-680 -/
def sgValue (inner : SgInner) (o : EOpts R S) (iter : ℕ) (theta : R) (resid : S) : Option (ℕ × S × R) :=
  match inner with
  | .gpi => some (iter, resid, theta + o.sigma)
  | .gii => some (iter, resid, 1 / theta + o.sigma)
  | .other => none

/-- the return code of creating the preconditioner: for inverse iteration first that of `A` and then, there being no `break`,
that of `B`. src/esolver/lis_esolver_si.c:542-568 -/
def sgPrecon (inner : SgInner) (perrA perrB : ℕ → Err) (j : ℕ) : Err :=
  match inner with
  | .gpi => perrB j
  | .gii => if perrA j ≠ .success then perrA j else perrB j
  | .other => .success

/-- mode `j ≥ 1`: error, number of iterations, theta and resid after it. src/esolver/lis_esolver_si.c:536-682 -/
def sgMode (lt : S → S → Bool) (inner : SgInner) (perrA perrB : ℕ → Err) (ss : ℕ) (o : EOpts R S) (j : ℕ) (st : R × S) :
    EProg R S (Err × ℕ × R × S) := do
  eCopy 1 (4 + j)
  if sgPrecon inner perrA perrB j ≠ .success then pure (sgPrecon inner perrA perrB j, 0, st) else
  let r ← eWhile (sgBody lt inner o j) o.maxiter 0 (.success, st)
  if r.2.1 ≠ .success then pure (r.2.1, r.1, r.2.2) else
  eCopy (4 + j) (ss + 4 + j)
  pure (.success, r.1, r.2.2)

/-- the loop over the modes: `fuel = ss-j` modes to go, `j` done. src/esolver/lis_esolver_si.c:534-698 -/
def sgModes (lt : S → S → Bool) (inner : SgInner) (perrA perrB : ℕ → Err) (ss : ℕ) (o : EOpts R S) :
    ℕ → ℕ → List (Option (ℕ × S × R)) → R × S → EProg R S (SiOut R S)
  | 0, _, l, _ => pure ⟨.success, l⟩
  | k + 1, j, l, st => do
    let r ← sgMode lt inner perrA perrB ss o (j + 1) st
    if r.1 ≠ .success then pure ⟨r.1, l⟩ else
    sgModes lt inner perrA perrB ss o k (j + 1) (l ++ [sgValue inner o r.2.1 r.2.2.1 r.2.2.2]) r.2.2

/-- what follows the loop over the modes. src/esolver/lis_esolver_si.c:700-706 -/
def sgEnd (ss : ℕ) (o : EOpts R S) (r : SiOut R S) : EProg R S (SiOut R S) :=
  if r.ret ≠ .success then pure r else do
    eShiftIf o (-o.sigma)
    eCopy (ss + 5) eV
    pure r

/-- `lis_egsi` up to the two calls that free the preconditioner and the solver. Only the option `-shift` is looked at, not
`esolver->ishift`. src/esolver/lis_esolver_si.c:453-701 -/
def lisEgsi (lt : S → S → Bool) (inner : SgInner) (perrA perrB : ℕ → Err) (ss : ℕ) (jt : R) (jr : S) (o : EOpts R S) :
    EProg R S (SiOut R S) := do
  let o : EOpts R S := { o with ishift := 0 }
  eSetAll 1 1
  eNormalize 1
  eShiftIf o o.sigma
  let r ← sgModes lt inner perrA perrB ss o ss 0 [] (jt, jr)
  sgEnd ss o r
end

/-- the local variable `precon` after mode `j` (`j = 0`: before the first): `none` while it is uninitialised, else the matrix it was
made from (`false` for `A`) and the mode. src/esolver/lis_esolver_si.c:542-568 -/
def sgPreconVar (inner : SgInner) : ℕ → Option (Bool × ℕ)
  | 0 => none
  | j + 1 =>
    let p := sgPreconVar inner j
    let p := if inner = .gii then some (false, j + 1) else p
    if inner = .gii ∨ inner = .gpi then some (true, j + 1) else p

/-- what `lis_precon_destroy(precon)` at the end frees: undefined behaviour for an uninitialised pointer.
src/esolver/lis_esolver_si.c:703 -/
def sgFree (inner : SgInner) (ss : ℕ) : Option (Bool × ℕ) := sgPreconVar inner ss
end Lis
