import Verif.Props.SolvehBsr
import Verif.Props.SolveBsrExamples
import Mathlib.NumberTheory.Zsqrtd.Basic
import Mathlib.Data.Rat.Star
import Mathlib.Tactic.IntervalCases

/-!
# C67: examples for the conjugate transpose solves; the statements without `conj`
-/

namespace Lis

/-- SSOR on `exBj4`: `((D+L)D⁻¹(D+U))ᴴ x = b` -/
example : (ssorhBsr star (fun _ _ => 0) (fun _ _ => 0) (fun _ => 77) (fun _ => 88) (fun _ => 99) (fun _ _ => 55) 1 exBj4 0 1
    (exTwo 4 [2, 2, 10, 13] [7, 7, 7, 9])).map (fun h => (h 1).value.toList) = some [1, 1, 1, 1] := by decide +kernel

/-- order 3, the last block is cut -/
example : (ssorhBsr star (fun _ _ => 0) (fun _ _ => 0) (fun _ => 77) (fun _ => 88) (fun _ => 99) (fun _ _ => 55) 1 exBj 0 1
    (exTwo 3 [4, 7, 19, 123] [7, 7, 7, 9])).map (fun h => (h 1).value.toList.take 3) = some [1, 2, 3] := by decide +kernel

/-- Gaussian integers -/
abbrev GI := ℤ√(-1)

/-- two vectors of length `n` -/
def exTwoG (n : ℕ) (b x : List GI) : Vecs GI := fun w => if w = 0 then ⟨n, .ofList b⟩ else ⟨n, .ofList x⟩

/-- order 4, blocks of order 2, unit diagonal blocks, one block above (`[0 0; i 0]`) and one below the diagonal
(`[0 0; i 0]`) -/
def exSp : SplitBsr GI where
  n := 4
  b := 2
  nr := 2
  D := .ofList [1, 0, 0, 1, 1, 0, 0, 1]
  L := ⟨4, 2, 2, 2, 2, 1, .ofList [0, 0, 1], .ofList [0], .ofList [0, ⟨0, 1⟩, 0, 0]⟩
  U := ⟨4, 2, 2, 2, 2, 1, .ofList [0, 1, 1], .ofList [1], .ofList [0, ⟨0, 1⟩, 0, 0]⟩

/-- row `i` of `(D+a)ᴴ x = b` holds, `x` being vector 1 -/
def rowOk (n : ℕ) (D a : ℕ → ℕ → GI) (b : List GI) (i : ℕ) (h : Vecs GI) : Bool :=
  decide (∑ j ∈ Finset.range n, star (D j i) * (h 1).value.get j + ∑ j ∈ Finset.range n, star (a j i) * (h 1).value.get j =
    (Arr.ofList b).get i)

theorem not_solves {r : Option (Vecs GI)} {n : ℕ} {D a : ℕ → ℕ → GI} {b : List GI} {i : ℕ} (hi : i < n)
    (e : r.map (rowOk n D a b i) = some false) :
    ∃ h', r = some h' ∧ ¬ SolvesTriMH n D a (h' 1).value.get (Arr.ofList b).get := by
  obtain ⟨h', e1, e2⟩ := Option.map_eq_some_iff.1 e
  exact ⟨h', e1, fun hs => of_decide_eq_false e2 (hs i hi)⟩

/-- **C67 (missing `conj`).** Complex build, block size 2: the result of `LIS_MATRIX_LOWER` does not solve
`(d+U)ᴴ x = b`. -/
theorem solvehLowerBsr_missing_conj : ∃ h', solvehLowerBsr star (fun _ => 0) exSp exSp.D 0 1
      (exTwoG 4 [0, 1, 0, 0] [7, 7, 7, 7]) = some h' ∧
    ¬ SolvesTriMH 4 (blockDiag 2 exSp.D) exSp.U.entry (h' 1).value.get (Arr.ofList [0, 1, 0, 0]).get :=
  not_solves (i := 2) (by decide) (by decide +kernel)

/-- **C67 (missing `conj`).** Complex build, block size 2: the result of `LIS_MATRIX_UPPER` does not solve
`(d+L)ᴴ x = b`. -/
theorem solvehUpperBsr_missing_conj : ∃ h', solvehUpperBsr star (fun _ => 0) exSp exSp.D 0 1
      (exTwoG 4 [0, 0, 0, 1] [7, 7, 7, 7]) = some h' ∧
    ¬ SolvesTriMH 4 (blockDiag 2 exSp.D) exSp.L.entry (h' 1).value.get (Arr.ofList [0, 0, 0, 1]).get :=
  not_solves (i := 0) (by decide) (by decide +kernel)

/-- one element, diagonal `i`, its inverse `-i` -/
def exOne : SplitBsr GI where
  n := 1
  b := 1
  nr := 1
  D := .ofList [⟨0, 1⟩]
  L := ⟨1, 1, 1, 1, 1, 0, .ofList [0, 0], .ofList [], .ofList []⟩
  U := ⟨1, 1, 1, 1, 1, 0, .ofList [0, 0], .ofList [], .ofList []⟩

/-- **C67 (missing `conj`).** Complex build, block size 1: `LIS_MATRIX_UPPER` multiplies by `d⁻¹`, not by its conjugate. -/
theorem solvehUpperBsr_missing_conj1 : ∃ h', solvehUpperBsr star (fun _ => 0) exOne (.ofList [⟨0, -1⟩]) 0 1
      (exTwoG 1 [1] [7]) = some h' ∧
    ¬ SolvesTriMH 1 (blockDiag 1 exOne.D) exOne.L.entry (h' 1).value.get (Arr.ofList [1]).get :=
  not_solves (i := 0) (by decide) (by decide +kernel)

/-- SSOR on the same data is right -/
example : (solvehSsorBsr star (fun _ => 0) exSp exSp.D 0 1 (exTwoG 4 [0, 1, 0, 0] [7, 7, 7, 7])).map
    (fun h => (h 1).value.toList) = some [0, 1, ⟨0, 1⟩, 0] := by decide +kernel

/-- `exSp` and `exOne` meet the hypotheses of the solve theorems -/
example : BlockInv 2 2 exSp.D exSp.D := by
  intro I hI r c hr hc
  interval_cases I <;> interval_cases r <;> interval_cases c <;> decide +kernel
example : BlockInv 1 1 exOne.D (.ofList [⟨0, -1⟩]) := by
  intro I hI r c hr hc
  obtain rfl : I = 0 := by omega
  obtain rfl : r = 0 := by omega
  obtain rfl : c = 0 := by omega
  decide +kernel
example : exSp.U.NoSelf := by
  intro i hi bc h1 h2
  have : i = 0 ∨ i = 1 := by simp only [exSp] at hi; omega
  rcases this with rfl | rfl
  · obtain rfl : bc = 0 := by change bc < 1 at h2; omega
    decide
  · change bc < 1 at h2
    change 1 ≤ bc at h1
    omega

end Lis
