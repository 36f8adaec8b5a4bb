import Verif.Props.SolveDnsEll
import Verif.Props.SolveCscMsrExamples

/-!
# C69: examples
-/

namespace Lis

/-- ```
2  1  0
3  1  4
0  5 -1
``` -/
def exSDns : Dns ℚ := ⟨3, 3, .ofList [2, 3, 0, 1, 1, 5, 0, 4, -1]⟩

/-- the same matrix in split ELL format; unused slots have the row as column and value 0 -/
def exSEll : SplitEll ℚ where
  n := 3
  D := .ofList [2, 1, -1]
  L := ⟨3, 1, .ofList [0, 0, 1], .ofList [0, 3, 5]⟩
  U := ⟨3, 1, .ofList [1, 2, 2], .ofList [1, 4, 0]⟩

example : exSDns.WF ∧ exSDns.np = exSDns.n := ⟨⟨by decide⟩, rfl⟩
example : exSEll.WF := ⟨by decide, rfl, rfl, ⟨by decide, by decide, by decide⟩, ⟨by decide, by decide, by decide⟩⟩
example : exSEll.Strict := ⟨by decide +kernel, by decide +kernel⟩
example : ∀ i, i < 3 → exSEll.D.get i * exSWd.get i = 1 := by
  intro i hi
  interval_cases i <;> decide +kernel

/-- `(D+L) x = (2, 4, 4)` -/
example : (solveLowerDns exSDns exSWd 0 1 (exTwo 3 [2, 4, 4] [7, 7, 7])).map (fun h => (h 1).value.toList) =
    some [1, 1, 1] := by decide +kernel
example : (solveLowerEll exSEll exSWd 0 1 (exTwo 3 [2, 4, 4] [7, 7, 7])).map (fun h => (h 1).value.toList) =
    some [1, 1, 1] := by decide +kernel
/-- `(D+U) x = (3, 5, -1)` -/
example : (solveUpperDns exSDns exSWd 0 1 (exTwo 3 [3, 5, -1] [7, 7, 7])).map (fun h => (h 1).value.toList) =
    some [1, 1, 1] := by decide +kernel
example : (solveUpperEll exSEll exSWd 0 1 (exTwo 3 [3, 5, -1] [7, 7, 7])).map (fun h => (h 1).value.toList) =
    some [1, 1, 1] := by decide +kernel
/-- `(D+U)ᵀ x = (2, 2, 3)` -/
example : (solvehLowerDns star exSDns exSWd 0 1 (exTwo 3 [2, 2, 3] [7, 7, 7])).map (fun h => (h 1).value.toList) =
    some [1, 1, 1] := by decide +kernel
example : (solvehLowerEll star exSEll exSWd 0 1 (exTwo 3 [2, 2, 3] [7, 7, 7])).map (fun h => (h 1).value.toList) =
    some [1, 1, 1] := by decide +kernel
/-- `(D+L)ᵀ x = (5, 6, -1)` -/
example : (solvehUpperDns star exSDns exSWd 0 1 (exTwo 3 [5, 6, -1] [7, 7, 7])).map (fun h => (h 1).value.toList) =
    some [1, 1, 1] := by decide +kernel
example : (solvehUpperEll star exSEll exSWd 0 1 (exTwo 3 [5, 6, -1] [7, 7, 7])).map (fun h => (h 1).value.toList) =
    some [1, 1, 1] := by decide +kernel
/-- SSOR: the formats agree -/
example : (solveSsorDns exSDns exSWd 0 1 (exTwo 3 [3, 9, 24] [7, 7, 7])).map (fun h => (h 1).value.toList) =
    (solveSsorEll exSEll exSWd 0 1 (exTwo 3 [3, 9, 24] [7, 7, 7])).map (fun h => (h 1).value.toList) := by decide +kernel
example : (solvehSsorDns star exSDns exSWd 0 1 (exTwo 3 [3, 9, 24] [7, 7, 7])).map (fun h => (h 1).value.toList) =
    (solvehSsorEll star exSEll exSWd 0 1 (exTwo 3 [3, 9, 24] [7, 7, 7])).map (fun h => (h 1).value.toList) := by decide +kernel
example : (solvehSsorDns star exSDns exSWd 0 1 (exTwo 3 [3, 9, 24] [7, 7, 7])).isSome := by decide +kernel

end Lis
