import Verif.Spec.Solver

/-!
# Status contract of the solvers that count differently

`lis_idrs`, `lis_idr1` test `iter ≤ maxiter` before an iteration is counted, so they can make more than `maxiter`
iterations, and on `LIS_MAXITER` they report the number of iterations made (not one more).  They have no breakdown exit.
-/

namespace Lis
variable {R S : Type} {n : ℕ}

/-- the preconditioner solve is linear (exact arithmetic) -/
def Kit.PsLinear [Add R] [Mul R] (K : Kit R S n) : Prop :=
  ∀ (a : R) (x y : Fin n → R), K.ps (fun i => x i + a * y i) = fun i => K.ps x i + a * K.ps y i

/-- `last` is the largest number of iterations -/
structure ContractLast [One R] [Neg R] [Add R] [Mul R] [RealOps S] (K : Kit R S n) (o : Opts R S) (last : ℕ)
    (s s' : MSt R S n) (out : Out S) : Prop where
  /-- the right-hand side is not changed -/
  b : s'.h hB = s.h hB
  size : s'.hist.size = s.hist.size
  /-- the residual history is written only with `LIS_PRINT_MEM`, and only for iterations that were made -/
  hist : ∀ j, (o.mem = false ∨ j = 0 ∨ out.iter < j) → s'.hist.get j = s.hist.get j
  /-- the iterations before the last one did not meet the tolerance -/
  fails : o.mem → ∀ j, 1 ≤ j → j < out.iter → ¬ s'.hist.get j ≤ tolOf K o s.h
  /-- how it ended -/
  cases :
    -- the initial guess was good enough: nothing is done, one iteration is reported
    (out = ⟨.success, 1, initialResOf K o s.h⟩ ∧ initialResOf K o s.h ≤ RealOps.fabs o.tol ∧ s'.h hX = s.h hX
      ∧ s'.hist = s.hist) ∨
    -- converged
    (¬ initialResOf K o s.h ≤ RealOps.fabs o.tol ∧ out.ret = .success ∧ 1 ≤ out.iter ∧ out.iter ≤ last ∧
      out.resid ≤ tolOf K o s.h ∧ (o.mem → s'.hist.get out.iter = out.resid)) ∨
    -- all iterations made, the last one missed the tolerance too
    (¬ initialResOf K o s.h ≤ RealOps.fabs o.tol ∧ out.ret = .maxiter ∧ out.iter = last ∧
      ¬ out.resid ≤ tolOf K o s.h ∧ (o.mem → s'.hist.get out.iter = out.resid))

/-- The same with a breakdown exit (`lis_bicgstabl`); `junk`, `brk` as in `Contract` -/
structure ContractLastB [One R] [Neg R] [Add R] [Mul R] [RealOps S] (K : Kit R S n) (o : Opts R S) (last : ℕ) (junk : S)
    (brk : MHeap R n → Prop) (s s' : MSt R S n) (out : Out S) : Prop where
  /-- the right-hand side is not changed -/
  b : s'.h hB = s.h hB
  size : s'.hist.size = s.hist.size
  /-- the residual history is written only with `LIS_PRINT_MEM`, and only for iterations that were made -/
  hist : ∀ j, (o.mem = false ∨ j = 0 ∨ out.iter < j) → s'.hist.get j = s.hist.get j
  /-- the iterations before the last one did not meet the tolerance -/
  fails : o.mem → ∀ j, 1 ≤ j → j < out.iter → ¬ s'.hist.get j ≤ tolOf K o s.h
  /-- how it ended -/
  cases :
    -- the initial guess was good enough: nothing is done, one iteration is reported
    (out = ⟨.success, 1, initialResOf K o s.h⟩ ∧ initialResOf K o s.h ≤ RealOps.fabs o.tol ∧ s'.h hX = s.h hX
      ∧ s'.hist = s.hist) ∨
    -- converged
    (¬ initialResOf K o s.h ≤ RealOps.fabs o.tol ∧ out.ret = .success ∧ 1 ≤ out.iter ∧ out.iter ≤ last ∧
      out.resid ≤ tolOf K o s.h ∧ (o.mem → s'.hist.get out.iter = out.resid)) ∨
    -- all iterations made, the last one missed the tolerance too
    (¬ initialResOf K o s.h ≤ RealOps.fabs o.tol ∧ out.ret = .maxiter ∧ out.iter = last ∧
      ¬ out.resid ≤ tolOf K o s.h ∧ (o.mem → s'.hist.get out.iter = out.resid)) ∨
    -- breakdown
    (¬ initialResOf K o s.h ≤ RealOps.fabs o.tol ∧ out.ret = .breakdown ∧ 1 ≤ out.iter ∧ out.iter ≤ last ∧
      brk s'.h ∧ ((out.iter = 1 ∧ out.resid = junk ∧ s'.hist = s.hist) ∨ ¬ out.resid ≤ tolOf K o s.h))

end Lis
