import Mathlib.Algebra.Order.Field.Basic
import Mathlib.Algebra.Order.Floor.Ring
import Mathlib.Algebra.Field.Power
import Verif.Model.Quad

/-!
# Binary floating-point numbers

Precision `p`, smallest exponent `emin`, no largest one (overflow is not modelled).  For the type `double` `p = 53` and
`emin = -1074`.
-/

namespace Lis
variable {K : Type} [Field K] [LinearOrder K] [IsStrictOrderedRing K]

/-- `x = m 2^e` with `|m| < 2^p`, `e ≥ emin` -/
def IsFloat (p : ℕ) (emin : ℤ) (x : K) : Prop := ∃ m e : ℤ, |m| < 2 ^ p ∧ emin ≤ e ∧ x = m * 2 ^ e

/-- rounding to a nearest floating-point number (any rule for ties) -/
structure Nearest (p : ℕ) (emin : ℤ) (rnd : K → K) : Prop where
  float : ∀ x, IsFloat p emin (rnd x)
  near : ∀ x f, IsFloat p emin f → |rnd x - x| ≤ |f - x|

/-- correctly rounded operations; the square root may be anything -/
def fpOf (rnd sqrt : K → K) : Fp K where
  add a b := rnd (a + b)
  sub a b := rnd (a - b)
  mul a b := rnd (a * b)
  div a b := rnd (a / b)
  sqrt a := sqrt a
  neg a := -a
  fma a b c := rnd (a * b + c)

/-- the number a pair stands for -/
def QD.val (q : QD K) : K := q.hi + q.lo

/-- a normalized pair: floating-point numbers, and `hi` is the sum rounded -/
structure QD.Norm (p : ℕ) (emin : ℤ) (rnd : K → K) (q : QD K) : Prop where
  fhi : IsFloat p emin q.hi
  flo : IsFloat p emin q.lo
  sum : rnd (q.hi + q.lo) = q.hi

end Lis
