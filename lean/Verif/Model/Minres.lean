import Verif.Model.Gmres

/-!
# lis_minres (src/solver/lis_solver_minres.c), real build

`v1, v2, v3, v4, w0, w1, w2` are `work[0..6]`.
-/

namespace Lis
variable {R S : Type}

/-- the scalar loop variables of lis_minres -/
structure MinSt (R S : Type) where
  beta2 : S
  gamma1 : R
  gamma2 : R
  sigma1 : R
  sigma2 : R
  eta : R
  reuc : S

section
variable [Zero R] [One R] [Add R] [Neg R] [Mul R] [Div R] [Sub R] [Star R] [DecidableEq R] [RealOps S]

/-- one iteration; `r0` is `r0_euc`. src/solver/lis_solver_minres.c:176-235 -/
def minresBody (F : GmFns R S) (o : Opts R S) (r0 : S) (iter : ℕ) (st : MinSt R S × S) :
    Prog R S ((MinSt R S × S) ⊕ Out S) := do
  vScale (1 / F.ofS st.1.beta2) (wk 1)
  mMatvec (wk 1) (wk 2)
  mPsolve (wk 2) (wk 3)
  let alpha ← vDot (wk 1) (wk 3)
  vAxpy (-alpha) (wk 1) (wk 3)
  vAxpy (-F.ofS st.1.beta2) (wk 0) (wk 3)
  let beta3 ← vNrm2 (wk 3)
  let delta := st.1.gamma2 * alpha - st.1.gamma1 * st.1.sigma2 * F.ofS st.1.beta2
  let rho1 := F.sqrt (delta * delta + F.ofS beta3 * F.ofS beta3)
  let rho2 := st.1.sigma2 * alpha + st.1.gamma1 * st.1.gamma2 * F.ofS st.1.beta2
  let rho3 := st.1.sigma1 * F.ofS st.1.beta2
  let gamma3 := delta / rho1
  let sigma3 := F.ofS beta3 / rho1
  vAxpyz (-rho3) (wk 4) (wk 1) (wk 6)
  vAxpy (-rho2) (wk 5) (wk 6)
  vScale (1 / rho1) (wk 6)
  vAxpy (gamma3 * st.1.eta) (wk 6) hX
  let reuc := st.1.reuc * F.abs sigma3
  let nrm2 := reuc / r0
  if o.mem = true then setHist iter nrm2
  if nrm2 ≤ o.tol then pure (.inr ⟨.success, iter, nrm2⟩)
  else do
    vCopy (wk 1) (wk 0)
    vCopy (wk 3) (wk 1)
    vCopy (wk 5) (wk 4)
    vCopy (wk 6) (wk 5)
    pure (.inl (⟨beta3, st.1.gamma2, gamma3, st.1.sigma2, sigma3, st.1.eta * -sigma3, reuc⟩, nrm2))

/-- `lis_minres`: no test before the first iteration; the tolerance is `tol` for every `-conv_cond`.  The calls of
`lis_vector_destroy` for the work vectors on the `LIS_MAXITER` exit (237-243) are not modelled: the vectors stay in
`solver->work` and are destroyed again by `lis_solver_destroy`. src/solver/lis_solver_minres.c:121-250 -/
def lisMinres (F : GmFns R S) (o : Opts R S) : Prog R S (Out S) := do
  mMatvec hX (wk 1)
  vXpay hB (-1) (wk 1)
  mPsolve (wk 1) (wk 2)
  vCopy (wk 2) (wk 1)
  let r ← vNrm2 (wk 1)
  vSetAll 0 (wk 0)
  vSetAll 0 (wk 4)
  vSetAll 0 (wk 5)
  mainLoop o.maxiter (minresBody F o r) (⟨r, 1, 1, 0, 0, F.ofS r, r⟩, r / r)

end
end Lis
