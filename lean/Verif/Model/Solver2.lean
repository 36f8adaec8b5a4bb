import Verif.Model.Solver

/-!
# Krylov solvers with a variable number of work vectors (src/solver), double precision versions

Same conventions as `Model/Solver.lean`.  The scalar arrays a solver allocates for itself are `Arr (Option R)`: `none` is
an element that was never assigned, and using its value in arithmetic is undefined (`aUse`).
-/

namespace Lis
variable {R S : Type}

/-- `for(i=lo; …; i++)`, `k` passes -/
def pfor {σ : Type} (body : ℕ → σ → Prog R S σ) : ℕ → ℕ → σ → Prog R S σ
  | 0, _, s => pure s
  | k + 1, i, s => do
    let s ← body i s
    pfor body k (i + 1) s

/-- the value of an element of a local array: undefined outside the array and for an element not yet assigned -/
def aUse (a : Arr (Option R)) (i : ℕ) : Prog R S R := .ofOption ((a.rd i).bind id)

section solvers
variable [Zero R] [One R] [Add R] [Neg R] [Mul R] [Div R] [Sub R] [Star R] [DecidableEq R] [RealOps S]

/-! ### lis_orthomin: r=work[0], rtld=work[1], p[i]=work[2+i], ap[i]=work[(m+1)+2+i], aptld[i]=work[2*(m+1)+2+i] -/

abbrev omP (i : ℕ) : ℕ := wk (2 + i)
abbrev omAp (m i : ℕ) : ℕ := wk ((m + 1) + 2 + i)
abbrev omApt (m i : ℕ) : ℕ := wk (2 * (m + 1) + 2 + i)

/-- orthogonalisation of the new direction against the `lmax` last ones. src/solver/lis_solver_orthomin.c:177-188 -/
def orthominOrth (m ip lmax : ℕ) (ds : Arr (Option R)) : Prog R S Unit :=
  pfor (fun l _ => do
    let ip0 := (ip + m + 1 - l) % (m + 1)
    let beta ← vDot (omApt m ip) (omApt m ip0)
    let d ← aUse ds (l - 1)
    let beta := -beta * d
    vAxpy beta (omP ip0) (omP ip)
    vAxpy beta (omAp m ip0) (omAp m ip)
    vAxpy beta (omApt m ip0) (omApt m ip)) lmax 1 ()

/-- `for(l=m-1;l>0;l--) dotsave[l] = dotsave[l-1]`: `k` passes, the next one with `l = k`.
src/solver/lis_solver_orthomin.c:189-192 -/
def orthominShift : ℕ → Arr (Option R) → Prog R S (Arr (Option R))
  | 0, ds => pure ds
  | k + 1, ds => do
    let v ← aRd ds k
    let ds ← aWr ds (k + 1) v
    orthominShift k ds

/-- one iteration of `lis_orthomin` with the new direction in place `ip`. src/solver/lis_solver_orthomin.c:166-235 -/
def orthominStep (m ip : ℕ) (o : Opts R S) (t : Tols S) (iter : ℕ) (s : Arr (Option R) × S) :
    Prog R S ((Arr (Option R) × S) ⊕ Out S) := do
  vCopy (wk 1) (omP ip)
  mMatvec (omP ip) (omAp m ip) (by simp only [omP, omAp, wk]; omega)
  mPsolve (omAp m ip) (omApt m ip) (by simp only [omAp, omApt, wk]; omega)
  orthominOrth m ip (min m (iter - 1)) s.1
  let ds ← orthominShift (m - 1) s.1
  let d ← vDot (omApt m ip) (omApt m ip)
  let ds ← aWr ds 0 (some d)
  if d = 0 then pure (.inr ⟨.breakdown, iter, s.2⟩)
  else do
    let ds ← aWr ds 0 (some (1 / d))
    let alpha ← vDot (wk 1) (omApt m ip)
    let alpha := alpha * (1 / d)
    vAxpy alpha (omP ip) hX
    vAxpy (-alpha) (omAp m ip) (wk 0)
    vAxpy (-alpha) (omApt m ip) (wk 1)
    let nrm2 ← checkResid o t iter (wk 0)
    if nrm2 ≤ t.tol then pure (.inr ⟨.success, iter, nrm2⟩)
    else pure (.inl (ds, nrm2))

/-- one iteration of `lis_orthomin` (`m = LIS_OPTIONS_RESTART`). src/solver/lis_solver_orthomin.c:162-236 -/
def orthominBody (m : ℕ) (o : Opts R S) (t : Tols S) (iter : ℕ) (s : Arr (Option R) × S) :
    Prog R S ((Arr (Option R) × S) ⊕ Out S) := orthominStep m ((iter - 1) % (m + 1)) o t iter s

/-- `lis_orthomin`.  `lis_solver_get_initial_residual` is called with the preconditioner: it leaves `b - A x` in `r` and
`M⁻¹ (b - A x)` in `rtld` (src/solver/lis_solver.c:1083-1087). src/solver/lis_solver_orthomin.c:124-246 -/
def lisOrthomin (m : ℕ) (junk : S) (o : Opts R S) : Prog R S (Out S) := do
  match ← initialResidual o (wk 0) (by decide) with
  | .inl out => pure out
  | .inr t => do
    mPsolve (wk 0) (wk 1)
    mainLoop o.maxiter (orthominBody m o t) (.malloc (m + 1) fun _ => none, junk)

end solvers
end Lis
