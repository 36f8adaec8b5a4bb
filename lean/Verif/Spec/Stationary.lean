import Verif.Model.Stationary

namespace Lis
variable {R S : Type} {n : ℕ}

/-- one sweep `x ↦ x + M⁻¹(b - A P⁻¹ x)`; `m` is the application of `M⁻¹`, `P` the preconditioner -/
def sweep [One R] [Neg R] [Add R] [Mul R] (K : Kit R S n) (m : (Fin n → R) → Fin n → R) (b x : Fin n → R) : Fin n → R :=
  fun i => x i + 1 * m (fun j => -1 * K.mv (K.ps x) j + b j) i

/-- relative residual of `P⁻¹ x`: `‖b - A P⁻¹ x‖₂ * (1/‖b‖₂)` -/
def sweepRes [One R] [Neg R] [Add R] [Mul R] [RealOps S] (K : Kit R S n) (b x : Fin n → R) : S :=
  K.nrm2 (fun j => -1 * K.mv (K.ps x) j + b j) * (1 / K.nrm2 b)

/-- What a stationary solver does: `k` sweeps until the residual *before* the sweep meets the tolerance, and then
`x = P⁻¹(x after the sweep)`. -/
structure StationaryRun [One R] [Neg R] [Add R] [Mul R] [RealOps S] (K : Kit R S n) (m : (Fin n → R) → Fin n → R)
    (o : Opts R S) (junk : S) (s s' : MSt R S n) (out : Out S) : Prop where
  b : s'.h hB = s.h hB
  size : s'.hist.size = s.hist.size
  hist : ∀ j, (o.mem = false ∨ j = 0 ∨ out.iter < j) → s'.hist.get j = s.hist.get j
  recd : o.mem → ∀ j, 1 ≤ j → j ≤ out.iter → j ≤ o.maxiter →
    s'.hist.get j = sweepRes K (s.h hB) ((sweep K m (s.h hB))^[j - 1] (s.h hX))
  fails : ∀ j, j + 1 < out.iter → ¬ sweepRes K (s.h hB) ((sweep K m (s.h hB))^[j] (s.h hX)) ≤ o.tol
  cases :
    (out.ret = .success ∧ 1 ≤ out.iter ∧ out.iter ≤ o.maxiter ∧
      out.resid = sweepRes K (s.h hB) ((sweep K m (s.h hB))^[out.iter - 1] (s.h hX)) ∧ out.resid ≤ o.tol ∧
      s'.h hX = K.ps ((sweep K m (s.h hB))^[out.iter] (s.h hX))) ∨
    (out.ret = .maxiter ∧ out.iter = o.maxiter + 1 ∧
      out.resid = (if o.maxiter = 0 then junk
        else sweepRes K (s.h hB) ((sweep K m (s.h hB))^[o.maxiter - 1] (s.h hX))) ∧
      s'.h hX = K.ps ((sweep K m (s.h hB))^[o.maxiter] (s.h hX)))

end Lis
