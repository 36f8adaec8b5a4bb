import Verif.Spec.Fp
import Mathlib.Data.Int.Log
import Mathlib.Data.Rat.Floor

/-!
# Round to nearest, ties to even, on the rational numbers
(an instance of `Nearest`; `rne 53 (-1074)` is the rounding of the type `double` in the default mode, without overflow)
-/

namespace Lis

/-- nearest integer, ties to even -/
def rnInt (y : ℚ) : ℤ :=
  if y - ⌊y⌋ < 1 / 2 then ⌊y⌋ else if 1 / 2 < y - ⌊y⌋ then ⌊y⌋ + 1 else if ⌊y⌋ % 2 = 0 then ⌊y⌋ else ⌊y⌋ + 1

/-- exponent of the last place -/
def rneExp (p : ℕ) (emin : ℤ) (x : ℚ) : ℤ := max emin (Int.log 2 |x| + 1 - p)

/-- round to nearest even -/
def rne (p : ℕ) (emin : ℤ) (x : ℚ) : ℚ := rnInt (x / 2 ^ rneExp p emin x) * 2 ^ rneExp p emin x

end Lis
