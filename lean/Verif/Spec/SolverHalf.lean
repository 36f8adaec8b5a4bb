import Verif.Spec.Solver

/-!
# Status contract of the solvers whose history and result are taken at different places of an iteration

As `Contract`, but the residual recorded for the last iteration need not be the one returned: `lis_tfqmr` records the
first half step of an iteration only.
-/

namespace Lis
variable {R S : Type} {n : ℕ}

structure ContractHalf [One R] [Neg R] [Add R] [Mul R] [RealOps S] (K : Kit R S n) (o : Opts R S) (junk : S)
    (brk : MHeap R n → Prop) (s s' : MSt R S n) (out : Out S) : Prop where
  /-- the right-hand side is not changed -/
  b : s'.h hB = s.h hB
  size : s'.hist.size = s.hist.size
  /-- the residual history is written only with `LIS_PRINT_MEM`, and only for iterations that were made -/
  hist : ∀ j, (o.mem = false ∨ j = 0 ∨ out.iter < j) → s'.hist.get j = s.hist.get j
  /-- the iterations before the last one did not meet the tolerance -/
  fails : o.mem → ∀ j, 1 ≤ j → j < out.iter → ¬ s'.hist.get j ≤ tolOf K o s.h
  /-- how it ended -/
  cases :
    -- the initial guess was good enough: nothing is done, one iteration is reported
    (out = ⟨.success, 1, initialResOf K o s.h⟩ ∧ initialResOf K o s.h ≤ RealOps.fabs o.tol ∧ s'.h hX = s.h hX
      ∧ s'.hist = s.hist) ∨
    -- converged; the recorded value is the one returned, or (stop in the second half step) missed the tolerance
    (¬ initialResOf K o s.h ≤ RealOps.fabs o.tol ∧ out.ret = .success ∧ 1 ≤ out.iter ∧ out.iter ≤ o.maxiter ∧
      out.resid ≤ tolOf K o s.h ∧
      (o.mem → s'.hist.get out.iter = out.resid ∨ ¬ s'.hist.get out.iter ≤ tolOf K o s.h)) ∨
    -- all iterations made, the last one missed the tolerance too
    (¬ initialResOf K o s.h ≤ RealOps.fabs o.tol ∧ out.ret = .maxiter ∧ out.iter = o.maxiter + 1 ∧
      (if o.maxiter = 0 then out.resid = junk else ¬ out.resid ≤ tolOf K o s.h)) ∨
    -- breakdown
    (¬ initialResOf K o s.h ≤ RealOps.fabs o.tol ∧ out.ret = .breakdown ∧ 1 ≤ out.iter ∧ out.iter ≤ o.maxiter ∧
      brk s'.h ∧ ((out.iter = 1 ∧ out.resid = junk ∧ s'.hist = s.hist) ∨ ¬ out.resid ≤ tolOf K o s.h))

end Lis
