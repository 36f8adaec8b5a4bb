import Verif.Model.Solver

/-! What it means that a solver does not depend on what its work vectors held before -/

namespace Lis
variable {R S : Type} {n : ℕ}

/-- the histories agree, except in places neither run has written -/
def SameHist (a0 b0 a b : Arr S) : Prop :=
  a.size = b.size ∧ ∀ i, a.get i = b.get i ∨ (a.get i = a0.get i ∧ b.get i = b0.get i)

/-- Two runs of the program from states with the same `b` and `x` (whatever the work vectors and the history hold) end
alike: both are undefined, or both return the same result (status, iteration count, residual), leave the same `x`, the same
`b`, and record the same history. -/
def IgnoresWork [Add R] [Mul R] [Star R] {α : Type} (K : Kit R S n) (p : Prog R S α) : Prop :=
  ∀ s s' : MSt R S n, s.h hB = s'.h hB → s.h hX = s'.h hX → s.hist.size = s'.hist.size →
    (p.run K s = none ∧ p.run K s' = none) ∨
    ∃ a t t', p.run K s = some (a, t) ∧ p.run K s' = some (a, t') ∧ t.h hX = t'.h hX ∧ t.h hB = t'.h hB ∧
      SameHist s.hist s'.hist t.hist t'.hist

end Lis
