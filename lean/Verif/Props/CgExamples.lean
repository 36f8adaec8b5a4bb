import Verif.Props.CgArray
import Verif.Props.GmresExamples
import Mathlib.Data.Matrix.Mul
import Mathlib.LinearAlgebra.Matrix.Notation
import Mathlib.Tactic.NormNum

/-!
# C44: the hypotheses are met, and needed
-/

namespace Lis
open Matrix

theorem spd_two {F : Type} [Field F] [LinearOrder F] [IsStrictOrderedRing F] {a b c : F} (ha : 0 < a) (hd : 0 < a * c - b * b) : Spd (!![a, b; b, c] : Matrix (Fin 2) (Fin 2) F) := by
  refine ⟨by ext i j; fin_cases i <;> fin_cases j <;> rfl, fun x hx => ?_⟩
  have e : x ⬝ᵥ !![a, b; b, c] *ᵥ x = a * (x 0 * x 0) + 2 * b * (x 0 * x 1) + c * (x 1 * x 1) := by
    simp [dotProduct, mulVec, Fin.sum_univ_two]; ring
  rw [e]
  have e2 : a * (a * (x 0 * x 0) + 2 * b * (x 0 * x 1) + c * (x 1 * x 1)) =
      (a * x 0 + b * x 1) ^ 2 + (a * c - b * b) * x 1 ^ 2 := by ring
  have : 0 < a * (a * (x 0 * x 0) + 2 * b * (x 0 * x 1) + c * (x 1 * x 1)) := by
    rw [e2]
    by_cases h1 : x 1 = 0
    · have h0 : x 0 ≠ 0 := by
        intro h0
        apply hx
        funext i
        fin_cases i
        · exact h0
        · exact h1
      rw [h1]
      have : 0 < (a * x 0) ^ 2 := by positivity
      simpa using this
    · have : 0 < (a * c - b * b) * x 1 ^ 2 := by positivity
      have := sq_nonneg (a * x 0 + b * x 1)
      linarith
  exact (mul_pos_iff_of_pos_left ha).1 this

/-- a CSR matrix for the array theorems -/
def exSpdCsr : Csr ℝ := ⟨2, 2, 4, .ofList [0, 2, 4], .ofList [0, 1, 0, 1], .ofList [2, 1, 1, 2]⟩

example : exSpdCsr.WF ∧ exSpdCsr.np = exSpdCsr.n ∧ Spd (toMat exSpdCsr.n exSpdCsr.entry) ∧
    (∀ i, i < exSpdCsr.n → exSpdCsr.StoresDiag i → exSpdCsr.DiagOnce i) := by
  refine ⟨⟨⟨by simp [exSpdCsr, Arr.ofList], by simp [exSpdCsr, Arr.ofList], ?_, by simp [exSpdCsr, Arr.ofList]⟩,
    by simp [exSpdCsr, Arr.ofList], by simp [exSpdCsr, Arr.ofList], ?_⟩, rfl, ?_, ?_⟩
  · intro i hi; simp only [exSpdCsr] at hi; interval_cases i <;> simp [exSpdCsr, Arr.ofList]
  · intro i hi; simp only [exSpdCsr] at hi; interval_cases i <;> simp [exSpdCsr, Arr.ofList]
  · have e : toMat exSpdCsr.n exSpdCsr.entry = (!![2, 1; 1, 2] : Matrix (Fin 2) (Fin 2) ℝ) := by
      ext i j
      fin_cases i <;> fin_cases j <;>
        simp [toMat, Csr.entry, exSpdCsr, Arr.ofList, Finset.sum_Ico_succ_top, Finset.sum_range_succ]
    rw [e]
    exact spd_two (by norm_num) (by norm_num)
  · intro i hi _
    simp only [exSpdCsr] at hi
    interval_cases i
    · refine ⟨0, by simp [exSpdCsr, Arr.ofList], fun l _ h2 h3 => ?_⟩
      simp [exSpdCsr, Arr.ofList] at h2
      interval_cases l <;> simp_all [exSpdCsr, Arr.ofList]
    · refine ⟨3, by simp [exSpdCsr, Arr.ofList], fun l h1 h2 h3 => ?_⟩
      simp [exSpdCsr, Arr.ofList] at h1 h2
      interval_cases l <;> simp_all [exSpdCsr, Arr.ofList]

/-- the ℚ matrices of the examples below -/
theorem spd_q1 : Spd (!![2, 1; 1, 2] : Matrix (Fin 2) (Fin 2) ℚ) := spd_two (by norm_num) (by norm_num)
theorem spd_q2 : Spd (!![1, 0; 0, 1 / 2] : Matrix (Fin 2) (Fin 2) ℚ) := spd_two (by norm_num) (by norm_num)

attribute [local instance] ratReal
@[local instance] def cgRatStar : Star ℚ := ⟨id⟩

/-- `[[2,1],[1,2]]` with the preconditioner `diag(1, 1/2)`; the norms are not used by the algebra -/
def spdKitQ : Kit ℚ ℚ 2 where
  mv := fun v => ![2 * v 0 + v 1, v 0 + 2 * v 1]
  mvh := fun v => ![2 * v 0 + v 1, v 0 + 2 * v 1]
  ps := fun v => ![v 0, v 1 / 2]
  psh := fun v => ![v 0, v 1 / 2]
  ls := id
  rdg := ![1 / 2, 1 / 2]
  dot := fun x y => x 0 * y 0 + x 1 * y 1
  nhdot := fun x y => x 0 * y 0 + x 1 * y 1
  nrm2 := fun v => |v 0| + |v 1|
  nrm1 := fun v => |v 0| + |v 1|

example : spdKitQ.Exact !![2, 1; 1, 2] !![1, 0; 0, 1 / 2] ∧ Spd (!![2, 1; 1, 2] : Matrix (Fin 2) (Fin 2) ℚ) ∧
    Spd (!![1, 0; 0, 1 / 2] : Matrix (Fin 2) (Fin 2) ℚ) := by
  refine ⟨⟨?_, ?_, ?_, ?_⟩, spd_q1, spd_q2⟩
  · intro x; funext i; fin_cases i <;> simp [spdKitQ, mulVec, dotProduct, Fin.sum_univ_two]
  · intro x; funext i; fin_cases i <;> simp [spdKitQ, mulVec, dotProduct, Fin.sum_univ_two]; ring
  · intro x y; simp [spdKitQ, dotProduct, Fin.sum_univ_two]
  · intro x y; simp [spdKitQ, dotProduct, Fin.sum_univ_two]

/-- tolerance 0, `b = (3, 0)`: the exact solution `(2, -1)` after two iterations; with `maxiter = 1 < n` the limit -/
example : ((lisCg (R := ℚ) (S := ℚ) 77 (gmOpts 5 0)).run spdKitQ (gmState 3)).map (fun r => (r.1, r.2.h hX)) =
    some (⟨.success, 2, 0⟩, ![2, -1]) := by decide +kernel
example : ((lisCg (R := ℚ) (S := ℚ) 77 (gmOpts 1 0)).run spdKitQ (gmState 3)).map (fun r => r.1.ret) =
    some .maxiter := by decide +kernel

/-- Symmetry and positivity are needed: with `A = [[0,1],[1,0]]` (symmetric, invertible) CG breaks down in the first
iteration. -/
theorem cg_indefinite_breakdown : ∃ (K : Kit ℚ ℚ 2) (o : Opts ℚ ℚ) (s : MSt ℚ ℚ 2),
    K.Exact !![0, 1; 1, 0] !![1, 0; 0, 1] ∧ (!![0, 1; 1, 0] : Matrix (Fin 2) (Fin 2) ℚ)ᵀ = !![0, 1; 1, 0] ∧ 2 ≤ o.maxiter ∧ 0 ≤ o.tol ∧
    ((lisCg (R := ℚ) (S := ℚ) 77 o).run K s).map (fun r => (r.1.ret, r.1.iter)) = some (.breakdown, 1) := by
  refine ⟨{ spdKitQ with mv := fun v => ![v 1, v 0], ps := id }, gmOpts 5 0, gmState 1, ⟨?_, ?_, ?_, ?_⟩, ?_, by decide,
    by decide +kernel, by decide +kernel⟩
  · intro x; funext i; fin_cases i <;> simp [mulVec, dotProduct, Fin.sum_univ_two]
  · intro x; funext i; fin_cases i <;> simp [mulVec, dotProduct, Fin.sum_univ_two]
  · intro x y; simp [spdKitQ, dotProduct, Fin.sum_univ_two]
  · intro x y; simp [spdKitQ, dotProduct, Fin.sum_univ_two]
  · ext i j; fin_cases i <;> fin_cases j <;> rfl

/-! C46 -/
example : ((lisCr (R := ℚ) (S := ℚ) 77 (gmOpts 5 0)).run spdKitQ (gmState 3)).map (fun r => (r.1, r.2.h hX)) =
    some (⟨.success, 2, 0⟩, ![2, -1]) := by decide +kernel
example : ((lisCr (R := ℚ) (S := ℚ) 77 (gmOpts 1 0)).run spdKitQ (gmState 3)).map (fun r => r.1.ret) =
    some .maxiter := by decide +kernel

/-- On the symmetric indefinite matrix `[[0,1],[1,0]]` CR makes a step of length 0 and then breaks down. -/
theorem cr_indefinite_breakdown : ∃ (K : Kit ℚ ℚ 2) (o : Opts ℚ ℚ) (s : MSt ℚ ℚ 2),
    K.Exact !![0, 1; 1, 0] !![1, 0; 0, 1] ∧ (!![0, 1; 1, 0] : Matrix (Fin 2) (Fin 2) ℚ)ᵀ = !![0, 1; 1, 0] ∧ 2 ≤ o.maxiter ∧ 0 ≤ o.tol ∧
    ((lisCr (R := ℚ) (S := ℚ) 77 o).run K s).map (fun r => (r.1.ret, r.1.iter)) = some (.breakdown, 2) := by
  refine ⟨{ spdKitQ with mv := fun v => ![v 1, v 0], ps := id }, gmOpts 5 0, gmState 1, ⟨?_, ?_, ?_, ?_⟩, ?_, by decide,
    by decide +kernel, by decide +kernel⟩
  · intro x; funext i; fin_cases i <;> simp [mulVec, dotProduct, Fin.sum_univ_two]
  · intro x; funext i; fin_cases i <;> simp [mulVec, dotProduct, Fin.sum_univ_two]
  · intro x y; simp [spdKitQ, dotProduct, Fin.sum_univ_two]
  · intro x y; simp [spdKitQ, dotProduct, Fin.sum_univ_two]
  · ext i j; fin_cases i <;> fin_cases j <;> rfl

end Lis
