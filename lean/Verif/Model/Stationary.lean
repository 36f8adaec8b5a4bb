import Verif.Model.Solver

/-!
# Stationary solvers: Jacobi, Gauss-Seidel, SOR (src/solver/lis_solver_{jacobi,gs,sor}.c)

`b = 0`, `x = 1`; r=work[0], t=work[1], s=work[2], d=work[3].  The preparation `lis_matrix_split` and the reciprocals
`A->WD` (of `D`, resp. `D/omega`) are what the calls `lis_matvec` and `lis_matrix_solve` work on (`Kit.mv`, `Kit.ls`).
-/

namespace Lis
variable {R S : Type}
variable [One R] [Neg R] [Add R] [Mul R] [RealOps S]

/-- one iteration; `upd` computes the correction from `r` into vector `c`.
src/solver/lis_solver_jacobi.c:149-188; lis_solver_gs.c:158-196; lis_solver_sor.c:171-209 -/
def statBody (upd : Prog R S Unit) (c : ℕ) (o : Opts R S) (bnrm : S) (iter : ℕ) (_s : Unit × S) :
    Prog R S ((Unit × S) ⊕ Out S) := do
  mPsolve hX (wk 2)
  mMatvec (wk 2) (wk 1)
  vAxpyz (-1) (wk 1) hB (wk 0)
  let nrm ← vNrm2 (wk 0)
  upd
  vAxpy 1 c hX
  let nrm2 := nrm * bnrm
  if o.mem then setHist iter nrm2
  if nrm2 ≤ o.tol then do
    mPsolve hX (wk 2)
    vCopy (wk 2) hX
    pure (.inr ⟨.success, iter, nrm2⟩)
  else pure (.inl ((), nrm2))

/-- the solver. src/solver/lis_solver_gs.c:139-205 -/
def statProg (pre upd : Prog R S Unit) (c : ℕ) (junk : S) (o : Opts R S) : Prog R S (Out S) := do
  let bn ← vNrm2 hB
  pre
  match ← forIter (statBody upd c o (1 / bn)) o.maxiter 1 ((), junk) with
  | .inr out => pure out
  | .inl st => do
    mPsolve hX (wk 2)
    vCopy (wk 2) hX
    pure ⟨.maxiter, o.maxiter + 1, st.2⟩

/-- `lis_jacobi`. src/solver/lis_solver_jacobi.c:112-199 -/
def lisJacobi (junk : S) (o : Opts R S) : Prog R S (Out S) :=
  statProg (mRdiag (wk 3)) (vPmul (wk 0) (wk 3) (wk 0)) (wk 0) junk o

/-- `lis_gs`; `lis_sor` differs only in `A->WD`. src/solver/lis_solver_gs.c:112-206, lis_solver_sor.c:122-219 -/
def lisGs (junk : S) (o : Opts R S) : Prog R S (Out S) :=
  statProg (pure ()) (mLsolve (wk 0) (wk 1)) (wk 1) junk o

def lisSor (junk : S) (o : Opts R S) : Prog R S (Out S) := lisGs junk o

end Lis
