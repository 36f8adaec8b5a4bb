import Verif.Props.CsrScale
import Verif.Props.CsrSolve
import Verif.Props.Matvec1
import Verif.Props.Matvec3
import Mathlib.Tactic.IntervalCases
import Mathlib.Tactic.NormNum

/-!
Concrete cases that meet the hypotheses of the theorems of `CsrOps`, `CsrScale` and `CsrSolve`, and runs of the model
on them.
-/

namespace Lis
open Finset

/-! `splitCsr_parts`, `splitCsr_spec`, `split_merge`, `getDiagonalCsr_spec`, `shiftDiagonalCsr_full`, `scaleCsr_spec`,
`scaleSymmCsr_spec`, `normfCsr_spec`, `transposeCsr_spec`, `sortCsr_spec` -/
theorem exCsr_once : ∀ i, i < exCsr.n → exCsr.DiagOnce i := by
  intro i hi
  change i < 3 at hi
  interval_cases i
  · exact ⟨0, by decide, fun l _ h2 h3 => by
      change l < 2 at h2; interval_cases l <;> first | rfl | exact absurd h3 (by decide)⟩
  · exact ⟨2, by decide, fun l h1 h2 h3 => by
      change l < 4 at h2; change 2 ≤ l at h1; interval_cases l <;> first | rfl | exact absurd h3 (by decide)⟩
  · exact ⟨5, by decide, fun l h1 h2 h3 => by
      change l < 6 at h2; change 4 ≤ l at h1; interval_cases l <;> first | rfl | exact absurd h3 (by decide)⟩

example : exCsr.WF ∧ exCsr.n ≤ exCsr.np ∧ (∀ i, i < exCsr.n → exCsr.DiagOnce i) :=
  ⟨exCsr_wf, by decide, exCsr_once⟩
example : (splitCsr (fun _ _ => 9) (fun _ _ => 9) (fun _ => 9) exCsr).map (fun S => (S.D.toList, S.L.ptr.toList,
    S.L.value.toList, S.U.ptr.toList, S.U.value.toList)) =
    some ([1, 3, 6], [0, 0, 0, 1], [5], [0, 1, 2, 2], [2, 4]) := by decide
example : ((splitCsr (fun _ _ => 9) (fun _ _ => 9) (fun _ => 9) exCsr).bind
    (mergeCsr (fun _ _ => 9) (fun _ => 9))).map (fun C => (C.ptr.toList, C.index.toList, C.value.toList)) =
    some ([0, 2, 4, 6], [0, 1, 1, 2, 0, 2], [1, 2, 3, 4, 5, 6]) := by decide

/-! `splitCsr_missing_diagonal`: row 0 stores (0,1) only -/
theorem noDiagCsr_wf : noDiagCsr.WF := ⟨⟨by decide, by decide, by decide, by decide⟩, by decide, by decide, by decide⟩
theorem noDiagCsr_row0 : ¬ noDiagCsr.StoresDiag 0 := by
  rintro ⟨k, _, h2, h3⟩
  change k < 1 at h2
  interval_cases k
  exact absurd h3 (by decide)
example : noDiagCsr.WF ∧ noDiagCsr.n ≤ noDiagCsr.np ∧ 0 < noDiagCsr.n ∧ ¬ noDiagCsr.StoresDiag 0 ∧ (9 : ℤ) ≠ 0 :=
  ⟨noDiagCsr_wf, by decide, by decide, noDiagCsr_row0, by decide⟩
example : (splitCsr (fun _ _ => 9) (fun _ _ => 9) (fun _ => 9) noDiagCsr).map (fun S => S.D.toList) =
    some [9, 7] := by decide
example : (getDiagonalCsr noDiagCsr (.ofList [9, 9, 9])).map Arr.toList = some [0, 7, 9] := by decide
example : (shiftDiagonalCsr noDiagCsr 2).map (fun A => A.value.toList) = some [5, 5] := by decide
example : (shiftDiagonalCsr exCsr 2).map (fun A => A.value.toList) = some [-1, 2, 1, 4, 5, 4] := by decide

/-! split matrices -/
theorem exSplitCsr_strict : exSplitCsr.Strict := by
  refine ⟨fun i hi k h1 h2 => ?_, fun i hi k h1 h2 => ?_⟩
  · change i < 3 at hi
    interval_cases i
    · exact absurd h2 (by simp [exSplitCsr, Arr.ofList])
    · exact absurd h2 (by simp [exSplitCsr, Arr.ofList])
    · change k < 1 at h2; interval_cases k; decide
  · change i < 3 at hi
    interval_cases i
    · change k < 1 at h2; interval_cases k; decide
    · change k < 2 at h2; change 1 ≤ k at h1; interval_cases k; decide
    · change k < 2 at h2; change 2 ≤ k at h1; omega

example : exSplitCsr.WF ∧ exSplitCsr.Strict := ⟨exSplitCsr_wf, exSplitCsr_strict⟩
example : (getDiagonalSplitCsr exSplitCsr (.ofList [9, 9, 9])).map Arr.toList = some [1, 3, 6] := by decide
example : (shiftDiagonalSplitCsr exSplitCsr 2).map (fun A => A.D.toList) = some [-1, 1, 4] := by decide
example : (scaleCsr exCsr (.ofList [2, 3, 4])).map (fun A => A.value.toList) = some [2, 4, 9, 12, 20, 24] := by decide
example : (scaleSymmCsr exCsr (.ofList [2, 3, 4])).map (fun A => A.value.toList) =
    some [4, 12, 27, 48, 40, 96] := by decide
example : (normfCsr id exCsr) = some 91 := by decide
example : (normfSplitCsr id exSplitCsr) = some 91 := by decide
example : (transposeCsr (fun _ _ => 9) (fun _ => 9) exCsr).map (fun A => (A.ptr.toList, A.index.toList, A.value.toList)) =
    some ([0, 2, 4, 6], [0, 2, 0, 1, 1, 2], [1, 5, 2, 3, 4, 6]) := by decide

/-! `matrixScaleJacobi_spec`, `matrixScaleSymm_spec`, `matrixScaleSymm_diag`: a real matrix with one negative and one
positive diagonal element -/
def exCsrR : Csr ℝ := ⟨2, 2, 3, .ofList [0, 2, 3], .ofList [0, 1, 1], ⟨3, fun k => if k = 0 then -4 else 9⟩⟩

theorem exCsrR_wf : exCsrR.WF := ⟨⟨by decide, by decide, by decide, by decide⟩, by decide, by decide, by decide⟩
theorem exCsrR_once : ∀ i, i < exCsrR.n → exCsrR.DiagOnce i := by
  intro i hi
  change i < 2 at hi
  interval_cases i
  · exact ⟨0, by decide, fun l _ h2 h3 => by
      change l < 2 at h2; interval_cases l <;> first | rfl | exact absurd h3 (by decide)⟩
  · exact ⟨2, by decide, fun l h1 h2 h3 => by
      change l < 3 at h2; change 2 ≤ l at h1; interval_cases l; rfl⟩
theorem exCsrR_diag : exCsrR.entry 0 0 = -4 ∧ exCsrR.entry 1 1 = 9 := by
  constructor
  · rw [Csr.entry_single (k := 0) (by decide) (by decide) (by decide) fun l h1 h2 h3 => by
      change l < 2 at h2; interval_cases l <;> first | rfl | exact absurd h3 (by decide)]
    simp [exCsrR]
  · rw [Csr.entry_single (k := 2) (by decide) (by decide) (by decide) fun l h1 h2 h3 => by
      change l < 3 at h2; change 2 ≤ l at h1; interval_cases l; rfl]
    simp [exCsrR]
example : exCsrR.WF ∧ exCsrR.np = exCsrR.n ∧ (∀ i, i < exCsrR.n → exCsrR.DiagOnce i) ∧
    ∀ i, i < exCsrR.n → exCsrR.entry i i ≠ 0 := by
  refine ⟨exCsrR_wf, rfl, exCsrR_once, fun i hi => ?_⟩
  change i < 2 at hi
  interval_cases i
  · rw [exCsrR_diag.1]; norm_num
  · rw [exCsrR_diag.2]; norm_num

/-! `matrixScaleSymmSplit_spec` (positive diagonal) and `matrixScaleSymmSplit_negative` -/
def exSplitR (a : ℝ) : SplitCsr ℝ := ⟨1, 1, ⟨1, fun _ => a⟩, ⟨1, 1, 0, .ofList [0, 0], .ofList [], ⟨0, fun _ => 0⟩⟩,
  ⟨1, 1, 0, .ofList [0, 0], .ofList [], ⟨0, fun _ => 0⟩⟩⟩
theorem exSplitR_wf (a : ℝ) : (exSplitR a).WF := ⟨Nat.le_refl _, Nat.le_refl _, rfl, rfl, rfl, rfl,
  ⟨⟨Nat.le_refl _, rfl, fun i hi => by change i < 1 at hi; interval_cases i; exact Nat.le_refl _, rfl⟩, Nat.zero_le _, Nat.zero_le _, fun k hk => absurd hk (Nat.not_lt_zero k)⟩,
  ⟨⟨Nat.le_refl _, rfl, fun i hi => by change i < 1 at hi; interval_cases i; exact Nat.le_refl _, rfl⟩, Nat.zero_le _, Nat.zero_le _, fun k hk => absurd hk (Nat.not_lt_zero k)⟩⟩
example : (exSplitR (-4)).WF ∧ (exSplitR (-4)).Strict ∧ 0 < (exSplitR (-4)).n ∧ (exSplitR (-4)).entry 0 0 < 0 := by
  refine ⟨exSplitR_wf _, ⟨fun i hi k _ h2 => ?_, fun i hi k _ h2 => ?_⟩, by decide, ?_⟩
  · change i < 1 at hi; interval_cases i; exact absurd h2 (Nat.not_lt_zero k)
  · change i < 1 at hi; interval_cases i; exact absurd h2 (Nat.not_lt_zero k)
  · unfold SplitCsr.entry Csr.entry; simp [exSplitR, Arr.ofList]

/-! triangular solves: diagonal `(1,-1,1)`, which is its own inverse -/
section
attribute [local instance] starRingOfComm
def exTri : SplitCsr ℤ := { exSplitCsr with D := .ofList [1, -1, 1] }
def exHeap : Vecs ℤ := fun w => if w = 0 then ⟨3, .ofList [1, 2, 3]⟩ else ⟨3, .ofList [9, 9, 9]⟩
theorem exTri_wf : exTri.WF := ⟨by decide, by decide, rfl, rfl, rfl, rfl, exSplitCsr_wf.lwf, exSplitCsr_wf.uwf⟩
theorem exTri_strict : exTri.Strict := ⟨exSplitCsr_strict.low, exSplitCsr_strict.up⟩
example : exTri.WF ∧ exTri.Strict ∧ exTri.np = exTri.n ∧ exTri.n ≤ (exHeap 0).value.size ∧
    exTri.n ≤ (exHeap 1).value.size ∧ (∀ i, i < exTri.n → exTri.D.get i * exTri.D.get i = 1) ∧
    exHeap.WF 0 ∧ exHeap.WF 1 ∧ (exHeap 0).n = exTri.n ∧ (exHeap 1).n = exTri.n :=
  ⟨exTri_wf, exTri_strict, rfl, by decide, by decide, by decide, (by decide : (3 : ℕ) ≤ 3), (by decide : (3 : ℕ) ≤ 3),
    rfl, rfl⟩
example : (solveLowerCsr exTri exTri.D 0 1 exHeap).map (fun h => (h 1).value.toList) = some [1, -2, -2] := by decide
example : (solveUpperCsr exTri exTri.D 0 1 exHeap).map (fun h => (h 1).value.toList) = some [-19, 10, 3] := by decide
example : (solveSsorCsr exTri exTri.D 0 1 exHeap).map (fun h => (h 1).value.toList) = some [21, -10, -2] := by decide
/-- in place: `x` and `b` the same vector -/
example : (solveSsorCsr exTri exTri.D 0 0 exHeap).map (fun h => (h 0).value.toList) = some [21, -10, -2] := by decide
/-- `solveUpperCsr_oob`: one row, two local columns, element (0,1) -/
def exRect : SplitCsr ℤ := ⟨1, 2, .ofList [3], ⟨1, 2, 0, .ofList [0, 0], .ofList [], .ofList []⟩,
    ⟨1, 2, 1, .ofList [0, 1], .ofList [1], .ofList [4]⟩⟩
example : exRect.WF ∧ 0 < exRect.n ∧ exRect.U.ptr.get (exRect.n - 1) ≤ 0 ∧ 0 < exRect.U.ptr.get exRect.n ∧
    exRect.n ≤ exRect.U.index.get 0 :=
  ⟨⟨by decide, by decide, rfl, rfl, rfl, rfl,
    ⟨⟨by decide, by decide, by decide, by decide⟩, by decide, by decide, by decide⟩,
    ⟨⟨by decide, by decide, by decide, by decide⟩, by decide, by decide, by decide⟩⟩,
    by decide, by decide, by decide, by decide⟩
end

end Lis
