import Verif.Spec.Solver

/-!
# Status contract of lis_minres

No test before the first iteration, no breakdown exit; the tolerance is `tol` whatever `-conv_cond` is.
-/

namespace Lis
variable {R S : Type} {n : ℕ}

/-- `init` is the value reported when no iteration is made -/
structure ContractMinres [RealOps S] (o : Opts R S) (init : S) (s s' : MSt R S n) (out : Out S) : Prop where
  /-- the right-hand side is not changed -/
  b : s'.h hB = s.h hB
  size : s'.hist.size = s.hist.size
  /-- the residual history is written only with `LIS_PRINT_MEM`, and only for iterations that were made -/
  hist : ∀ j, (o.mem = false ∨ j = 0 ∨ out.iter < j) → s'.hist.get j = s.hist.get j
  /-- the iterations before the last one did not meet the tolerance -/
  fails : o.mem → ∀ j, 1 ≤ j → j < out.iter → ¬ s'.hist.get j ≤ o.tol
  /-- how it ended -/
  cases :
    -- converged
    (out.ret = .success ∧ 1 ≤ out.iter ∧ out.iter ≤ o.maxiter ∧ out.resid ≤ o.tol ∧
      (o.mem → s'.hist.get out.iter = out.resid)) ∨
    -- all iterations made, the last one missed the tolerance too
    (out.ret = .maxiter ∧ out.iter = o.maxiter + 1 ∧
      (if o.maxiter = 0 then out.resid = init
        else ¬ out.resid ≤ o.tol ∧ (o.mem → s'.hist.get o.maxiter = out.resid)))

end Lis
