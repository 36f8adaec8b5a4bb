import Verif.Model.Solver

/-!
# What a user of an iterative solver relies on

`K` says what the calls `lis_matvec`, `lis_psolve`, inner products and norms compute (any functions: no law assumed).
-/

namespace Lis
variable {R S : Type} {n : ℕ}

/-- the number compared with the tolerance, for a residual vector `v`: `‖v‖₁` for `nrm1_b`, `‖v‖₂ * bnrm` otherwise -/
def resOf [Mul S] (K : Kit R S n) (c : Conv) (bnrm : S) (v : Fin n → R) : S :=
  match c with
  | .nrm1B => K.nrm1 v
  | _ => K.nrm2 v * bnrm

/-- `r0 = b - A x0` (`b` when the initial guess is declared zero) -/
def r0Of [One R] [Neg R] [Add R] [Mul R] (K : Kit R S n) (o : Opts R S) (h : MHeap R n) : Fin n → R :=
  if o.initZero then h hB else fun i => h hB i + -1 * K.mv (h hX) i

/-- the norm the test is relative to: `‖r0‖₂`, `‖b‖₂`, `‖b‖₁` -/
def refNorm [One R] [Neg R] [Add R] [Mul R] (K : Kit R S n) (o : Opts R S) (h : MHeap R n) : S :=
  match o.conv with
  | .nrm2R => K.nrm2 (r0Of K o h)
  | .nrm2B => K.nrm2 (h hB)
  | .nrm1B => K.nrm1 (h hB)

/-- `bnrm`: reciprocal of the reference norm, 1 if that is zero -/
def bnrmOf [One R] [Neg R] [Add R] [Mul R] [RealOps S] (K : Kit R S n) (o : Opts R S) (h : MHeap R n) : S :=
  if refNorm K o h = 0 then 1 else 1 / refNorm K o h

/-- the tolerance: `tol` for `nrm2_r`, `nrm2_b`; `‖b‖₁ * tol_w + tol` for `nrm1_b` -/
def tolOf [One R] [Neg R] [Add R] [Mul R] [RealOps S] (K : Kit R S n) (o : Opts R S) (h : MHeap R n) : S :=
  match o.conv with
  | .nrm1B => K.nrm1 (h hB) * o.tolW + o.tol
  | _ => o.tol

/-- the number tested (against `|tol|`) before the first iteration -/
def initialResOf [One R] [Neg R] [Add R] [Mul R] [RealOps S] (K : Kit R S n) (o : Opts R S) (h : MHeap R n) : S :=
  (match o.conv with
  | .nrm1B => K.nrm1 (r0Of K o h)
  | _ => K.nrm2 (r0Of K o h)) * bnrmOf K o h

/-- The status contract of an iterative solver started in `s` that returned `out` in state `s'`.
`junk` is the uninitialised residual variable; `brk` is the solver's breakdown condition on the final vectors. -/
structure Contract [One R] [Neg R] [Add R] [Mul R] [RealOps S] (K : Kit R S n) (o : Opts R S) (junk : S)
    (brk : MHeap R n → Prop) (s s' : MSt R S n) (out : Out S) : Prop where
  /-- the right-hand side is not changed -/
  b : s'.h hB = s.h hB
  size : s'.hist.size = s.hist.size
  /-- the residual history is written only with `LIS_PRINT_MEM`, and only for iterations that were made -/
  hist : ∀ j, (o.mem = false ∨ j = 0 ∨ out.iter < j) → s'.hist.get j = s.hist.get j
  /-- the iterations before the last one did not meet the tolerance -/
  fails : o.mem → ∀ j, 1 ≤ j → j < out.iter → ¬ s'.hist.get j ≤ tolOf K o s.h
  /-- how it ended -/
  cases :
    -- the initial guess was good enough: nothing is done, one iteration is reported
    (out = ⟨.success, 1, initialResOf K o s.h⟩ ∧ initialResOf K o s.h ≤ RealOps.fabs o.tol ∧ s'.h hX = s.h hX
      ∧ s'.hist = s.hist) ∨
    -- converged
    (¬ initialResOf K o s.h ≤ RealOps.fabs o.tol ∧ out.ret = .success ∧ 1 ≤ out.iter ∧ out.iter ≤ o.maxiter ∧
      out.resid ≤ tolOf K o s.h ∧ (o.mem → s'.hist.get out.iter = out.resid)) ∨
    -- all iterations made, the last one missed the tolerance too
    (¬ initialResOf K o s.h ≤ RealOps.fabs o.tol ∧ out.ret = .maxiter ∧ out.iter = o.maxiter + 1 ∧
      (if o.maxiter = 0 then out.resid = junk
        else ¬ out.resid ≤ tolOf K o s.h ∧ (o.mem → s'.hist.get o.maxiter = out.resid))) ∨
    -- breakdown
    (¬ initialResOf K o s.h ≤ RealOps.fabs o.tol ∧ out.ret = .breakdown ∧ 1 ≤ out.iter ∧ out.iter ≤ o.maxiter ∧
      brk s'.h ∧ ((out.iter = 1 ∧ out.resid = junk ∧ s'.hist = s.hist) ∨ ¬ out.resid ≤ tolOf K o s.h))

/-- the matrix product is linear (exact arithmetic) -/
def Kit.Linear [Add R] [Mul R] (K : Kit R S n) : Prop :=
  ∀ (a : R) (x y : Fin n → R), K.mv (fun i => x i + a * y i) = fun i => K.mv x i + a * K.mv y i

/-- the residual of what is now in `x`: `b - A x` -/
def trueRes [Sub R] (K : Kit R S n) (h : MHeap R n) : Fin n → R := fun i => h hB i - K.mv (h hX) i

/-- The reported residual is computed from the residual `b - A x` of the returned `x` (except: nothing computed yet) -/
def ReportsTrue [One R] [Neg R] [Add R] [Mul R] [Sub R] [RealOps S] (K : Kit R S n) (o : Opts R S) (junk : S)
    (s s' : MSt R S n) (out : Out S) : Prop :=
  -- stopped before the first iteration
  (out.ret = .success ∧ out.resid = initialResOf K o s.h ∧ initialResOf K o s.h ≤ RealOps.fabs o.tol ∧
    r0Of K o s.h = trueRes K s'.h) ∨
  -- all other cases
  out.resid = resOf K o.conv (bnrmOf K o s.h) (trueRes K s'.h) ∨
  -- no residual was ever computed: the uninitialised variable is reported
  (out.ret ≠ .success ∧ out.resid = junk ∧ (o.maxiter = 0 ∨ out.iter = 1))

end Lis
