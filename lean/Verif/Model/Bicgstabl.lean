import Verif.Model.Solver2

/-!
# lis_bicgstabl (src/solver/lis_solver_bicgstabl.c), double precision version

rtld=work[0], xp=work[1], bp=work[2], t=work[3], r[i]=work[4+i], u[i]=work[l+5+i] (`i ≤ l`).  The norms `normx`, `normr`
are computed but never used and are left out.  `l ≥ 1` is checked by `lis_bicgstabl_check_params` (lines 62-67).
-/

namespace Lis
variable {R S : Type}

abbrev blR (i : ℕ) : ℕ := wk (4 + i)
abbrev blU (l i : ℕ) : ℕ := wk (l + 5 + i)

/-! The scalar arrays are pieces of one block of `z*(4+l+1)` elements, `z = l+1` (lines 159-168): `tau` at 0,
`gamma` at `z*z`, `gamma1` at `z*z+z`, `gamma2` at `z*z+2z`, `sigma` at `z*z+3z`. -/

abbrev blTau (l i j : ℕ) : ℕ := i * (l + 1) + j
abbrev blGamma (l i : ℕ) : ℕ := (l + 1) * (l + 1) + i
abbrev blGamma1 (l i : ℕ) : ℕ := (l + 1) * (l + 1) + (l + 1) + i
abbrev blGamma2 (l i : ℕ) : ℕ := (l + 1) * (l + 1) + 2 * (l + 1) + i
abbrev blSigma (l i : ℕ) : ℕ := (l + 1) * (l + 1) + 3 * (l + 1) + i

section
variable [Zero R] [One R] [Add R] [Neg R] [Mul R] [Div R] [Sub R] [Star R] [DecidableEq R] [RealOps S]

/-- before every `return` except the last: `x = M⁻¹ x + xp`. E.g. src/solver/lis_solver_bicgstabl.c:217-220 -/
def blFinish : Prog R S Unit := do
  mPsolve hX (wk 3)
  vCopy (wk 3) hX
  vAxpy 1 (wk 1) hX

/-- the scalars of the BiCG part -/
structure BlSt (R : Type) where
  alpha : R
  rho0 : R

/-- `for(i=0;i<=j;i++) u[i] = r[i] - beta*u[i]`. src/solver/lis_solver_bicgstabl.c:235-238 -/
def blXpay (l : ℕ) (beta : R) (j : ℕ) : Prog R S Unit :=
  pfor (fun i _ => vXpay (blR i) (-beta) (blU l i)) (j + 1) 0 ()

/-- `for(i=0;i<=j;i++) r[i] = r[i] - alpha*u[i+1]`. src/solver/lis_solver_bicgstabl.c:273-276 -/
def blAxpy (l : ℕ) (alpha : R) (j : ℕ) : Prog R S Unit :=
  pfor (fun i _ => vAxpy (-alpha) (blU l (i + 1)) (blR i)) (j + 1) 0 ()

/-- step `j` of the BiCG part, `iter` already counted. src/solver/lis_solver_bicgstabl.c:209-315 -/
def blBicg (l : ℕ) (o : Opts R S) (t : Tols S) (iter j : ℕ) (st : BlSt R × S) : Prog R S ((BlSt R × S) ⊕ Out S) := do
  let rho1 ← vDot (wk 0) (blR j)
  if rho1 = 0 then do
    blFinish
    pure (.inr ⟨.breakdown, iter, st.2⟩)
  else do
    let beta := st.1.alpha * (rho1 / st.1.rho0)
    blXpay l beta j
    mPsolve (blU l j) (wk 3) (by simp only [blU, wk]; omega)
    mMatvec (wk 3) (blU l (j + 1)) (by simp only [blU, wk]; omega)
    let nu ← vDot (wk 0) (blU l (j + 1))
    if nu = 0 then do
      blFinish
      pure (.inr ⟨.breakdown, iter, st.2⟩)
    else do
      let alpha := rho1 / nu
      vAxpy alpha (blU l 0) hX
      blAxpy l alpha j
      let nrm2 ← getResidual o.conv t (blR 0)
      if iter % l ≠ 0 ∧ o.mem = true then setHist iter nrm2
      if nrm2 ≤ t.tol then do
        if o.mem = true then setHist iter nrm2
        blFinish
        pure (.inr ⟨.success, iter, nrm2⟩)
      else do
        mPsolve (blR j) (wk 3) (by simp only [blR, wk]; omega)
        mMatvec (wk 3) (blR (j + 1)) (by simp only [blR, wk]; omega)
        pure (.inl (⟨alpha, rho1⟩, nrm2))

/-- orthogonalisation of `r[j]`. src/solver/lis_solver_bicgstabl.c:328-339 -/
def blOrth (l j : ℕ) (a : Arr (Option R)) : Prog R S (Arr (Option R)) := do
  let a ← pfor (fun i a => do
    let nu ← vDot (blR j) (blR i)
    let si ← aUse a (blSigma l i)
    let nu := nu / si
    let a ← aWr a (blTau l i j) (some nu)
    vAxpy (-nu) (blR i) (blR j)
    pure a) (j - 1) 1 a
  let sj ← vDot (blR j) (blR j)
  let a ← aWr a (blSigma l j) (some sj)
  let nu ← vDot (blR 0) (blR j)
  let s ← aUse a (blSigma l j)
  aWr a (blGamma1 l j) (some (nu / s))

/-- `nu = Σ_{i=lo}^{lo+k-1} tau[j*z+i]*gamma[i+sh]` -/
def blSum (l j sh : ℕ) (a : Arr (Option R)) (k lo : ℕ) : Prog R S R :=
  pfor (fun i nu => do
    let x ← aUse a (blTau l j i)
    let g ← aUse a (blGamma l (i + sh))
    pure (nu + x * g)) k lo 0

/-- `for(j=l-1;j>=1;j--) gamma[j] = …`: `k` passes, the next one with `j = k`.
src/solver/lis_solver_bicgstabl.c:344-352 -/
def blBack (l : ℕ) : ℕ → Arr (Option R) → Prog R S (Arr (Option R))
  | 0, a => pure a
  | k + 1, a => do
    let nu ← blSum l (k + 1) 0 a (l - (k + 1)) (k + 2)
    let g ← aUse a (blGamma1 l (k + 1))
    let a ← aWr a (blGamma l (k + 1)) (some (g - nu))
    blBack l k a

/-- the MR part up to the update. src/solver/lis_solver_bicgstabl.c:328-361 -/
def blScalars (l : ℕ) (a : Arr (Option R)) : Prog R S (Arr (Option R) × R) := do
  let a ← pfor (fun j a => blOrth l j a) l 1 a
  let g ← aUse a (blGamma1 l l)
  let a ← aWr a (blGamma l l) (some g)
  let omega ← aUse a (blGamma l l)
  let a ← blBack l (l - 1) a
  let a ← pfor (fun j a => do
    let nu ← blSum l j 1 a (l - 1 - j) (j + 1)
    let g ← aUse a (blGamma l (j + 1))
    aWr a (blGamma2 l j) (some (g + nu))) (l - 1) 1 a
  pure (a, omega)

/-- the update of `x`, `r[0]`, `u[0]`. src/solver/lis_solver_bicgstabl.c:364-372 -/
def blUpdate (l : ℕ) (a : Arr (Option R)) : Prog R S Unit := do
  let g ← aUse a (blGamma l 1)
  vAxpy g (blR 0) hX
  let g ← aUse a (blGamma1 l l)
  vAxpy (-g) (blR l) (blR 0)
  let g ← aUse a (blGamma l l)
  vAxpy (-g) (blU l l) (blU l 0)
  pfor (fun j _ => do
    let g ← aUse a (blGamma l j)
    vAxpy (-g) (blU l j) (blU l 0)
    let g ← aUse a (blGamma2 l j)
    vAxpy g (blR j) hX
    let g ← aUse a (blGamma1 l j)
    vAxpy (-g) (blR j) (blR 0)) (l - 1) 1 ()

/-- one pass of the loop, entered with `iter`: `l` iterations. State: (alpha, omega, rho0, scalar block), nrm2.
src/solver/lis_solver_bicgstabl.c:198-394 -/
def blBody (l : ℕ) (o : Opts R S) (t : Tols S) (iter : ℕ) (st : (R × R × R × Arr (Option R)) × S) :
    Prog R S (((R × R × R × Arr (Option R)) × S) ⊕ Out S) := do
  let ((alpha, omega, rho0, a), nrm2) := st
  match ← forIter (fun j => blBicg l o t (iter + j + 1) j) l 0 (⟨alpha, -omega * rho0⟩, nrm2) with
  | .inr out => pure (.inr out)
  | .inl (g, _) => do
    let (a, omega) ← blScalars l a
    blUpdate l a
    let nrm2 ← checkResid o t (iter + l) (blR 0)
    if nrm2 ≤ t.tol then do
      blFinish
      pure (.inr ⟨.success, iter + l, nrm2⟩)
    else pure (.inl ((g.alpha, omega, g.rho0, a), nrm2))

/-- `lis_bicgstabl`.  The loop is entered with `iter = 0, l, 2l, …` while `iter ≤ maxiter`: `maxiter/l+1` passes.
src/solver/lis_solver_bicgstabl.c:123-402 -/
def lisBicgstabl (l : ℕ) (junk : S) (o : Opts R S) : Prog R S (Out S) := do
  match ← initialResidual o (blR 0) (by decide) with
  | .inl out => pure out
  | .inr t => do
    setShadow o (blR 0) (wk 0)
    vCopy (blR 0) (wk 2)
    vCopy hX (wk 1)
    vSetAll 0 (blU l 0)
    match ← forIter (fun k => blBody l o t (k * l)) (o.maxiter / l + 1) 0
        ((0, 1, 1, .malloc ((l + 1) * (4 + l + 1)) fun _ => none), junk) with
    | .inr out => pure out
    | .inl st => pure ⟨.maxiter, (o.maxiter / l + 1) * l, st.2⟩

end
end Lis
