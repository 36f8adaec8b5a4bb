import Verif.Spec.Formats3

/-! Split MSR: diagonal in `D`, strictly lower and upper part in the MSR layout without a diagonal of their own. -/

namespace Lis
open Finset
variable {R : Type}

/-- the off-diagonal part of an MSR structure -/
def Msr.off [AddCommMonoid R] (A : Msr R) (i j : ℕ) : R :=
  ∑ k ∈ Ico (A.index.get i) (A.index.get (i + 1)), if A.index.get k = j then A.value.get k else 0

/-- split MSR (`A->is_splited`); `L.value[0..n)` and `U.value[0..n)` are never set nor read -/
structure SplitMsr (R : Type) where
  n : ℕ
  D : Arr R
  L : Msr R
  U : Msr R

structure SplitMsr.WF (A : SplitMsr R) : Prop where
  dsz : A.n ≤ A.D.size
  ln : A.L.n = A.n
  un : A.U.n = A.n
  lwf : A.L.WF
  uwf : A.U.WF

def SplitMsr.entry [AddCommMonoid R] (A : SplitMsr R) (i j : ℕ) : R :=
  (if i = j then A.D.get i else 0) + A.L.off i j + A.U.off i j

/-- block-diagonal matrix with blocks `e b` on the partition `row` of `0..n` into `nr` blocks -/
def blockDiagV [AddCommMonoid R] (nr : ℕ) (row : Arr ℕ) (e : ℕ → ℕ → ℕ → R) (i j : ℕ) : R :=
  ∑ b ∈ range nr, if (row.get b ≤ i ∧ i < row.get (b + 1)) ∧ (row.get b ≤ j ∧ j < row.get (b + 1)) then
    e b (i - row.get b) (j - row.get b) else 0

/-- every diagonal block of a split VBR matrix equals its transpose -/
def SplitVbr.DiagSymm (A : SplitVbr R) : Prop :=
  ∀ b, b < A.nr → ∀ i j, i < A.L.row.get (b + 1) - A.L.row.get b → j < A.L.row.get (b + 1) - A.L.row.get b →
    (A.D.get b).get (i * (A.L.row.get (b + 1) - A.L.row.get b) + j) =
    (A.D.get b).get (j * (A.L.row.get (b + 1) - A.L.row.get b) + i)

/-- every diagonal block of a split VBR matrix equals its conjugate transpose -/
def SplitVbr.DiagHerm [Star R] (A : SplitVbr R) : Prop :=
  ∀ b, b < A.nr → ∀ i j, i < A.L.row.get (b + 1) - A.L.row.get b → j < A.L.row.get (b + 1) - A.L.row.get b →
    (A.D.get b).get (i * (A.L.row.get (b + 1) - A.L.row.get b) + j) =
    star ((A.D.get b).get (j * (A.L.row.get (b + 1) - A.L.row.get b) + i))

end Lis
