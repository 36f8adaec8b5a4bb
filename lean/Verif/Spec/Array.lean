import Verif.Model.Array
import Mathlib.LinearAlgebra.Matrix.Determinant.Basic

/-!
# What the small dense kernels should compute

A column-major block of memory read as a matrix, and the effect of `LIS_INS_VALUE`, `LIS_SUB_VALUE`,
`LIS_ADD_VALUE` on one element.
-/

namespace Lis
variable {R : Type}

/-- new value of an element whose old value is `y` when `t` is inserted / subtracted / added -/
def ArrOp.app [Add R] [Sub R] (op : ArrOp) (y t : R) : R :=
  match op with
  | .ins => t
  | .sub => y - t
  | .add => y + t

/-- the `m × n` matrix stored column by column in `a`, with leading dimension `ld` -/
def Arr.mat (a : Arr R) (m n ld : Nat) : Matrix (Fin m) (Fin n) R :=
  Matrix.of fun i j => a.get (i + j * ld)

/-- the first `n` elements of `x` -/
def Arr.vec (x : Arr R) (n : Nat) : Fin n → R := fun i => x.get i

/-- all leading principal minors of `a` are nonzero (the condition for elimination without row exchanges) -/
def LeadingMinors [CommRing R] (n : Nat) (a : Arr R) : Prop :=
  ∀ k, k ≤ n → (a.mat k k n).det ≠ 0

end Lis
