import Verif.Spec.Formats
import Mathlib.Algebra.Ring.Basic

/-! What the I+S preconditioner stands for -/

namespace Lis
open Finset
variable {R : Type}

/-- entry `(i,j)` of the matrix made of the first `m` stored elements of every row of `U` -/
def Csr.firstM [AddCommMonoid R] (U : Csr R) (m i j : ℕ) : R :=
  ∑ k ∈ Ico (U.ptr.get i) (min (U.ptr.get i + m) (U.ptr.get (i + 1))), if U.index.get k = j then U.value.get k else 0

/-- entry `(i,j)` of `I - w S`, `S` being the first `m` stored elements of every row of `U` -/
def isMat [Ring R] (U : Csr R) (w : R) (m i j : ℕ) : R := (if i = j then 1 else 0) - w * U.firstM m i j

end Lis
