import Verif.Props.SolveCscMsr
import Verif.Props.SolvehBsrExamples

/-!
# C68: examples; the wrong order of the MSR conjugate transpose solves
-/

namespace Lis

/-- ```
2  1  0
3  1  4
0  5 -1
``` -/
def exSCsc : SplitCsc ℚ where
  n := 3
  np := 3
  D := .ofList [2, 1, -1]
  L := ⟨3, 3, 2, .ofList [0, 1, 2, 2], .ofList [1, 2], .ofList [3, 5]⟩
  U := ⟨3, 3, 2, .ofList [0, 0, 1, 2], .ofList [0, 1], .ofList [1, 4]⟩

/-- the same matrix in MSR format -/
def exSMsr : SplitMsr ℚ where
  n := 3
  D := .ofList [2, 1, -1]
  L := ⟨3, 2, .ofList [4, 4, 5, 6, 0, 1], .ofList [77, 77, 77, 77, 3, 5]⟩
  U := ⟨3, 2, .ofList [4, 5, 6, 6, 1, 2], .ofList [77, 77, 77, 77, 1, 4]⟩

/-- reciprocals of the diagonal -/
def exSWd : Arr ℚ := .ofList [1 / 2, 1, -1]

example : ∀ i, i < exSCsc.n → exSCsc.D.get i * exSWd.get i = 1 := by
  intro i hi
  have : i < 3 := hi
  interval_cases i <;> decide +kernel

example : exSCsc.Strict := by
  have l : ∀ j < 3, ∀ k < 2, exSCsc.L.ptr.get j ≤ k → k < exSCsc.L.ptr.get (j + 1) → j < exSCsc.L.index.get k := by decide
  have u : ∀ j < 3, ∀ k < 2, exSCsc.U.ptr.get j ≤ k → k < exSCsc.U.ptr.get (j + 1) → exSCsc.U.index.get k < j := by decide
  have lb : ∀ j < 3, exSCsc.L.ptr.get (j + 1) ≤ 2 := by decide
  have ub : ∀ j < 3, exSCsc.U.ptr.get (j + 1) ≤ 2 := by decide
  exact ⟨fun j hj k h1 h2 => l j hj k (lt_of_lt_of_le h2 (lb j hj)) h1 h2,
    fun j hj k h1 h2 => u j hj k (lt_of_lt_of_le h2 (ub j hj)) h1 h2⟩

example : exSMsr.Strict := by
  have l : ∀ j < 3, ∀ k < 6, exSMsr.L.index.get j ≤ k → k < exSMsr.L.index.get (j + 1) → exSMsr.L.index.get k < j := by decide
  have u : ∀ j < 3, ∀ k < 6, exSMsr.U.index.get j ≤ k → k < exSMsr.U.index.get (j + 1) → j < exSMsr.U.index.get k := by decide
  have lb : ∀ j < 3, exSMsr.L.index.get (j + 1) ≤ 6 := by decide
  have ub : ∀ j < 3, exSMsr.U.index.get (j + 1) ≤ 6 := by decide
  exact ⟨fun j hj k h1 h2 => l j hj k (lt_of_lt_of_le h2 (lb j hj)) h1 h2,
    fun j hj k h1 h2 => u j hj k (lt_of_lt_of_le h2 (ub j hj)) h1 h2⟩

/-- `(D+L) x = (2, 4, 4)` -/
example : (solveLowerCsc exSCsc exSWd 0 1 (exTwo 3 [2, 4, 4] [7, 7, 7])).map (fun h => (h 1).value.toList) =
    some [1, 1, 1] := by decide +kernel
example : (solveLowerMsr exSMsr exSWd 0 1 (exTwo 3 [2, 4, 4] [7, 7, 7])).map (fun h => (h 1).value.toList) =
    some [1, 1, 1] := by decide +kernel
/-- `(D+U) x = (3, 5, -1)` -/
example : (solveUpperCsc exSCsc exSWd 0 1 (exTwo 3 [3, 5, -1] [7, 7, 7])).map (fun h => (h 1).value.toList) =
    some [1, 1, 1] := by decide +kernel
example : (solveUpperMsr exSMsr exSWd 0 1 (exTwo 3 [3, 5, -1] [7, 7, 7])).map (fun h => (h 1).value.toList) =
    some [1, 1, 1] := by decide +kernel
/-- `(D+U)ᵀ x = (2, 2, 3)`: right for CSC -/
example : (solvehLowerCsc star exSCsc exSWd 0 1 (exTwo 3 [2, 2, 3] [7, 7, 7])).map (fun h => (h 1).value.toList) =
    some [1, 1, 1] := by decide +kernel
/-- SSOR, both formats -/
example : (solveSsorCsc exSCsc exSWd 0 1 (exTwo 3 [3, 9, 24] [7, 7, 7])).map (fun h => (h 1).value.toList) =
    (solveSsorMsr exSMsr exSWd 0 1 (exTwo 3 [3, 9, 24] [7, 7, 7])).map (fun h => (h 1).value.toList) := by decide +kernel
example : (solvehSsorCsc star exSCsc exSWd 0 1 (exTwo 3 [3, 9, 24] [7, 7, 7])).map (fun h => (h 1).value.toList) =
    (solvehSsorMsr star exSMsr exSWd 0 1 (exTwo 3 [3, 9, 24] [7, 7, 7])).map (fun h => (h 1).value.toList) := by decide +kernel

/-- row `i` of `(D+a)ᴴ x = b` holds, `x` being vector 1 -/
def rowOkQ (n : ℕ) (D : ℕ → ℚ) (a : ℕ → ℕ → ℚ) (b : List ℚ) (i : ℕ) (h : Vecs ℚ) : Bool :=
  decide (star (D i) * (h.el 1) i + ∑ j ∈ Finset.range n, star (a j i) * (h.el 1) j = (Arr.ofList b).get i)

theorem not_solvesQ {r : Option (Vecs ℚ)} {n : ℕ} {D : ℕ → ℚ} {a : ℕ → ℕ → ℚ} {b : List ℚ} {i : ℕ} (hi : i < n)
    (e : r.map (rowOkQ n D a b i) = some false) :
    ∃ h', r = some h' ∧ ¬ SolvesTriH n D a (h'.el 1) (Arr.ofList b).get := by
  obtain ⟨h', e1, e2⟩ := Option.map_eq_some_iff.1 e
  exact ⟨h', e1, fun hs => of_decide_eq_false e2 (hs i hi)⟩

/-- **C68 (MSR, wrong order).** `LIS_MATRIX_LOWER` with conjugate transpose runs through the rows of `U` downwards, so
`x[i]` is scaled before the contributions of the smaller rows arrive: the result does not solve `(D+U)ᴴ x = b`. -/
theorem solvehLowerMsr_wrong : ∃ h', solvehLowerMsr star exSMsr exSWd 0 1 (exTwo 3 [2, 2, 3] [7, 7, 7]) = some h' ∧
    ¬ SolvesTriH 3 exSMsr.D.get exSMsr.U.off (h'.el 1) (Arr.ofList [2, 2, 3]).get :=
  not_solvesQ (i := 2) (by decide) (by decide +kernel)

/-- **C68 (MSR, wrong order).** `LIS_MATRIX_UPPER` likewise: the result does not solve `(D+L)ᴴ x = b`. -/
theorem solvehUpperMsr_wrong : ∃ h', solvehUpperMsr star exSMsr exSWd 0 1 (exTwo 3 [5, 6, -1] [7, 7, 7]) = some h' ∧
    ¬ SolvesTriH 3 exSMsr.D.get exSMsr.L.off (h'.el 1) (Arr.ofList [5, 6, -1]).get :=
  not_solvesQ (i := 0) (by decide) (by decide +kernel)

end Lis
