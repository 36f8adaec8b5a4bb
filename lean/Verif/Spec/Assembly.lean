import Verif.Spec.Formats

/-!
# Specification of matrix assembly

`lis_matrix_set_value` calls, and what they mean for the matrix: a function from positions to
values, initially 0; `LIS_INS_VALUE` overwrites, any other flag adds; a call with an index outside
the matrix has no effect.
-/

namespace Lis
variable {R : Type}

/-- one call `lis_matrix_set_value(flag,i,j,value,A)` -/
structure SetCall (R : Type) where
  flag : ℤ
  i : ℤ
  j : ℤ
  value : R

/-- the row/column index meant by a user index (Fortran origin: 1-based) -/
def userIdx (origin : Bool) (i : ℤ) : ℤ := if origin then i - 1 else i

/-- both indices lie in the `gn × gn` matrix -/
def SetCall.InRange (origin : Bool) (gn : ℕ) (c : SetCall R) : Prop :=
  (0 ≤ userIdx origin c.i ∧ userIdx origin c.i < gn) ∧
  (0 ≤ userIdx origin c.j ∧ userIdx origin c.j < gn)

instance (origin : Bool) (gn : ℕ) (c : SetCall R) : Decidable (c.InRange origin gn) := by
  unfold SetCall.InRange; infer_instance

/-- meaning of one call; `LIS_INS_VALUE` is 0 (include/lis.h:206) -/
def specSet [Add R] (origin : Bool) (gn : ℕ) (m : ℕ → ℕ → R) (c : SetCall R) : ℕ → ℕ → R :=
  if c.InRange origin gn then
    fun a b => if (a : ℤ) = userIdx origin c.i ∧ (b : ℤ) = userIdx origin c.j then
      (if c.flag = 0 then c.value else m a b + c.value) else m a b
  else m

/-- meaning of a sequence of calls -/
def specSets [Add R] (origin : Bool) (gn : ℕ) (m : ℕ → ℕ → R) (cs : List (SetCall R)) :
    ℕ → ℕ → R := cs.foldl (specSet origin gn) m

/-- positions touched by a sequence of calls -/
def Touched (origin : Bool) (gn : ℕ) (cs : List (SetCall R)) (a b : ℕ) : Prop :=
  ∃ c ∈ cs, c.InRange origin gn ∧ (a : ℤ) = userIdx origin c.i ∧ (b : ℤ) = userIdx origin c.j

end Lis
