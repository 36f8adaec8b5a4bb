import Verif.Props.ConvergeCsr
import Verif.Props.CgExamples

/-!
# C45: the hypotheses are met, and needed
-/

namespace Lis
open Finset

/-- `[4 1; 1 3]`, split -/
noncomputable def exDom : SplitCsr ℝ := ⟨2, 2, .ofList [4, 3], ⟨2, 2, 1, .ofList [0, 0, 1], .ofList [0], .ofList [1]⟩,
  ⟨2, 2, 1, .ofList [0, 1, 1], .ofList [1], .ofList [1]⟩⟩

theorem exDom_entry : toMat exDom.n exDom.entry = (!![4, 1; 1, 3] : Matrix (Fin 2) (Fin 2) ℝ) := by
  ext i j
  fin_cases i <;> fin_cases j <;> simp [toMat, SplitCsr.entry, Csr.entry, exDom, Arr.ofList]

example : exDom.WF ∧ exDom.Strict ∧ exDom.np = exDom.n ∧ StrictDom exDom.n exDom.entry ∧
    Spd (toMat exDom.n exDom.entry) ∧ (∀ i, i < exDom.n → offDiag exDom.n exDom.entry i ≤ 1 / 3 * |exDom.entry i i|) := by
  have e00 : exDom.entry 0 0 = 4 := congrFun (congrFun exDom_entry (0 : Fin 2)) (0 : Fin 2)
  have e01 : exDom.entry 0 1 = 1 := congrFun (congrFun exDom_entry (0 : Fin 2)) (1 : Fin 2)
  have e10 : exDom.entry 1 0 = 1 := congrFun (congrFun exDom_entry (1 : Fin 2)) (0 : Fin 2)
  have e11 : exDom.entry 1 1 = 3 := congrFun (congrFun exDom_entry (1 : Fin 2)) (1 : Fin 2)
  have o0 : offDiag 2 exDom.entry 0 = 1 := by
    rw [offDiag, show (range 2).erase 0 = {1} by decide, sum_singleton, e01]; norm_num
  have o1 : offDiag 2 exDom.entry 1 = 1 := by
    rw [offDiag, show (range 2).erase 1 = {0} by decide, sum_singleton, e10]; norm_num
  refine ⟨⟨by simp [exDom, Arr.ofList], le_rfl, rfl, rfl, rfl, rfl, ⟨⟨?_, rfl, ?_, rfl⟩, ?_, ?_, ?_⟩,
    ⟨⟨?_, rfl, ?_, rfl⟩, ?_, ?_, ?_⟩⟩, ⟨?_, ?_⟩, rfl, ?_, ?_, ?_⟩
  case refine_6 | refine_1 => simp [exDom, Arr.ofList]
  case refine_2 | refine_7 => intro i hi; change i < 2 at hi; interval_cases i <;> simp [exDom, Arr.ofList]
  case refine_3 | refine_4 | refine_8 | refine_9 => simp [exDom, Arr.ofList]
  case refine_5 | refine_10 => intro i hi; change i < 1 at hi; interval_cases i; simp [exDom, Arr.ofList]
  · intro i hi k h1 h2
    change i < 2 at hi
    interval_cases i
    · exact absurd h2 (by simp [exDom, Arr.ofList])
    · change k < 1 at h2; interval_cases k; simp [exDom, Arr.ofList]
  · intro i hi k h1 h2
    change i < 2 at hi
    interval_cases i
    · change k < 1 at h2; interval_cases k; simp [exDom, Arr.ofList]
    · change k < 1 at h2; change 1 ≤ k at h1; omega
  · intro i hi
    change i < 2 at hi
    interval_cases i
    · show offDiag 2 _ _ < _; rw [o0, e00]; norm_num
    · show offDiag 2 _ _ < _; rw [o1, e11]; norm_num
  · rw [exDom_entry]; exact spd_two (by norm_num) (by norm_num)
  · intro i hi
    change i < 2 at hi
    interval_cases i
    · show offDiag 2 _ _ ≤ _; rw [o0, e00]; norm_num
    · show offDiag 2 _ _ ≤ _; rw [o1, e11]; norm_num

/-- Without dominance Jacobi may fail for every `maxiter`: the matrix `[1 2; 2 1]`, the right-hand side `(3,3)`, the
initial guess zero and any tolerance below 1. -/
theorem jacobi_diverges {o : Opts ℝ ℝ} (ht : o.tol < 1) {junk : ℝ} {x' : ℕ → ℝ} {out : Out ℝ}
    (h : StationaryArray 2 (fun i j => if i = j then 1 else 2) (fun _ _ => 0) (fun _ => 1) Real.sqrt o junk (fun _ => 3)
      (fun _ => 0) x' out) : out.ret = .maxiter := by
  obtain ⟨X, hX0, hX, -, hc⟩ := h
  simp only [star_trivial] at hc
  have hXk : ∀ k, X k 0 = 1 - (-2) ^ k ∧ X k 1 = 1 - (-2) ^ k := by
    intro k
    induction k with
    | zero => exact ⟨by rw [hX0 0 (by omega)]; norm_num, by rw [hX0 1 (by omega)]; norm_num⟩
    | succ k ih =>
      have h0 := hX k 0 (by omega)
      have h1 := hX k 1 (by omega)
      simp [sum_range_succ] at h0 h1
      rw [ih.1, ih.2] at h0 h1
      constructor
      · rw [pow_succ]; linarith
      · rw [pow_succ]; linarith
  rcases hc with ⟨-, h1, h2, h3, h4, -⟩ | ⟨h, -⟩
  · exfalso
    rw [h3] at h4
    have hr : ∀ i, i < 2 → (3 : ℝ) - ∑ j ∈ range 2, (if i = j then 1 else 2) * X (out.iter - 1) j =
        3 * (-2) ^ (out.iter - 1) := by
      intro i hi
      interval_cases i
      · simp [sum_range_succ, hXk]; ring
      · simp [sum_range_succ, hXk]; ring
    have hs : ∑ i ∈ range 2, ((3 : ℝ) - ∑ j ∈ range 2, (if i = j then 1 else 2) * X (out.iter - 1) j) *
        (3 - ∑ j ∈ range 2, (if i = j then 1 else 2) * X (out.iter - 1) j) = 18 * 4 ^ (out.iter - 1) := by
      rw [sum_congr rfl fun i hi => by rw [hr i (mem_range.1 hi)]]
      simp only [sum_const, card_range, nsmul_eq_mul]
      rw [show (4 : ℝ) = (-2) * (-2) by norm_num, mul_pow]
      push_cast
      ring
    rw [hs] at h4
    have hb : ∑ i ∈ range 2, (3 : ℝ) * 3 = 18 := by norm_num
    rw [hb, div_le_iff₀ (by positivity)] at h4
    have h5 : Real.sqrt 18 ≤ Real.sqrt (18 * 4 ^ (out.iter - 1)) := by
      refine Real.sqrt_le_sqrt ?_
      have : (1 : ℝ) ≤ 4 ^ (out.iter - 1) := one_le_pow₀ (by norm_num)
      linarith
    have h6 : 0 < Real.sqrt 18 := by positivity
    nlinarith
  · exact h

end Lis
