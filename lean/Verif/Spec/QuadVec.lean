import Verif.Spec.Fp
import Verif.Model.QuadVec

/-! # Vectors of pairs -/

namespace Lis
variable {R : Type}

/-- element `i` -/
def QVec.get (x : QVec R) (i : ℕ) : QD R := ⟨x.hi.get i, x.lo.get i⟩
/-- both arrays have at least `n` elements -/
def QVec.Fits (n : ℕ) (x : QVec R) : Prop := n ≤ x.hi.size ∧ n ≤ x.lo.size

variable {K : Type} [Field K] [LinearOrder K] [IsStrictOrderedRing K]

/-- the product of `x` and `y` does not underflow: one is zero, or both are normal and the product is not tiny -/
def SafeMul (p : ℕ) (emin : ℤ) (x y : K) : Prop :=
  x = 0 ∨ y = 0 ∨ 2 ^ (emin + p - 1) ≤ |x| ∧ 2 ^ (emin + p - 1) ≤ |y| ∧ 2 ^ (emin + 2 * p) ≤ |x * y|

end Lis
