import Verif.Model.Solver2

/-!
# lis_tfqmr (src/solver/lis_solver_qmr.c), double precision version

r=work[0], rtld=work[1], u=work[2], p=work[3], d=work[4], t=work[5], t1=work[6], q=work[7], v=work[8].
`toR`, `re` are the conversions between `LIS_REAL` and `LIS_SCALAR` (identities in the real build), `sqrt` is `sqrt` on
`LIS_REAL`.
-/

namespace Lis
variable {R S : Type}

/-- the scalar functions `lis_tfqmr` uses -/
structure TfqmrFns (R S : Type) where
  toR : S → R
  re : R → S
  sqrt : S → S

section
variable [Zero R] [One R] [Add R] [Neg R] [Mul R] [Div R] [Sub R] [Star R] [DecidableEq R] [RealOps S]

/-- the scalars kept from one half step to the next -/
structure TfqmrHalf (R S : Type) where
  theta : R
  eta : R
  tau : S

/-- half step `m` (0 or 1) of iteration `iter`; result: the new scalars and `nrm2`.
src/solver/lis_solver_qmr.c:211-261 -/
def tfqmrHalf (F : TfqmrFns R S) (o : Opts R S) (t : Tols S) (iter m : ℕ) (alpha w wold : R) (g : TfqmrHalf R S) :
    Prog R S (TfqmrHalf R S × S) := do
  let ww : R := if m = 0 then F.toR (F.sqrt (F.re (w * wold))) else w
  if m = 0 then vXpay (wk 2) (g.theta * g.theta * g.eta / alpha) (wk 4)
  else vXpay (wk 7) (g.theta * g.theta * g.eta / alpha) (wk 4)
  let theta : R := ww / F.toR g.tau
  let c : R := 1 / F.toR (F.sqrt (F.re (1 + theta * theta)))
  let eta : R := c * c * alpha
  let tau : S := F.re (F.toR g.tau * theta * c)
  mPsolve (wk 4) (wk 6)
  vAxpy eta (wk 6) hX
  let nrm2 : S := tau * F.sqrt (if m = 0 then 1 else 1 + 1) * t.bnrm
  if m = 0 ∧ o.mem = true then setHist iter nrm2
  pure (⟨theta, eta, tau⟩, nrm2)

/-- the end of an iteration. src/solver/lis_solver_qmr.c:268-291 -/
def tfqmrNext (rhoold w : R) (iter : ℕ) (g : TfqmrHalf R S) (nrm2 : S) :
    Prog R S (((R × R × TfqmrHalf R S) × S) ⊕ Out S) := do
  let rho ← vDot (wk 0) (wk 1)
  if rho = 0 then pure (.inr ⟨.breakdown, iter, nrm2⟩)
  else do
    let beta := rho / rhoold
    vAxpyz beta (wk 7) (wk 0) (wk 2)
    vXpay (wk 7) beta (wk 3)
    vXpay (wk 2) beta (wk 3)
    mPsolve (wk 3) (wk 6)
    mMatvec (wk 6) (wk 8)
    pure (.inl ((rho, w, g), nrm2))

/-- one iteration; state (rhoold, wold, half-step scalars), nrm2. src/solver/lis_solver_qmr.c:183-291 -/
def tfqmrBody (F : TfqmrFns R S) (o : Opts R S) (t : Tols S) (iter : ℕ) (st : (R × R × TfqmrHalf R S) × S) :
    Prog R S (((R × R × TfqmrHalf R S) × S) ⊕ Out S) := do
  let ((rhoold, wold, g), nrm2) := st
  let s ← vDot (wk 8) (wk 1)
  if s = 0 then pure (.inr ⟨.breakdown, iter, nrm2⟩)
  else do
    let alpha := rhoold / s
    vAxpyz (-alpha) (wk 8) (wk 2) (wk 7)
    vAxpyz 1 (wk 2) (wk 7) (wk 5)
    mPsolve (wk 5) (wk 6)
    mMatvec (wk 6) (wk 8)
    vAxpy (-alpha) (wk 8) (wk 0)
    let w ← vNrm2 (wk 0)
    let w := F.toR w
    let (g, nrm2) ← tfqmrHalf F o t iter 0 alpha w wold g
    if nrm2 ≤ t.tol then pure (.inr ⟨.success, iter, nrm2⟩)
    else do
      let (g, nrm2) ← tfqmrHalf F o t iter 1 alpha w wold g
      if nrm2 ≤ t.tol then pure (.inr ⟨.success, iter, nrm2⟩)
      else tfqmrNext rhoold w iter g nrm2

/-- `lis_tfqmr`. src/solver/lis_solver_qmr.c:113-299 -/
def lisTfqmr (F : TfqmrFns R S) (junk : S) (o : Opts R S) : Prog R S (Out S) := do
  match ← initialResidual o (wk 0) (by decide) with
  | .inl out => pure out
  | .inr t => do
    setShadow o (wk 0) (wk 1)
    vCopy (wk 0) (wk 3)
    vCopy (wk 0) (wk 2)
    vSetAll 0 (wk 4)
    mPsolve (wk 3) (wk 5)
    mMatvec (wk 5) (wk 8)
    let rhoold ← vDot (wk 0) (wk 1)
    let tau ← vNrm2 (wk 0)
    mainLoop o.maxiter (tfqmrBody F o t) ((rhoold, F.toR tau, ⟨0, 0, tau⟩), junk)

end
end Lis
