import Verif.Props.Sainv
import Mathlib.Tactic.IntervalCases
import Mathlib.Data.Rat.Defs

/-! C55: examples -/

namespace Lis
open Finset Matrix

/-- order 10, five blocks `[[2,1],[1,2]]` -/
def svEx (R : Type) [OfNat R 1] [OfNat R 2] : Csr R :=
  ⟨10, 10, 20, ⟨11, fun k => 2 * k⟩, ⟨20, fun k => k / 4 * 2 + k % 2⟩,
    ⟨20, fun k => if k % 4 = 0 ∨ k % 4 = 3 then 2 else 1⟩⟩

theorem svEx_wf (R : Type) [OfNat R 1] [OfNat R 2] : (svEx R).WF :=
  ⟨⟨le_rfl, rfl, fun i _ => show 2 * i ≤ 2 * (i + 1) by omega, rfl⟩, le_rfl, le_rfl,
    fun k hk => show k / 4 * 2 + k % 2 < 10 by have : k < 20 := hk; omega⟩

theorem svEx_spd : Spd (toMat 10 (svEx ℝ).entry) := by
  have e : ∀ i j, i < 10 → j < 10 → (svEx ℝ).entry i j = if i = j then 2 else if i / 2 = j / 2 then 1 else 0 := by
    intro i j hi hj
    unfold Csr.entry
    simp only [svEx]
    rw [Finset.sum_Ico_eq_sum_range, show 2 * (i + 1) - 2 * i = 2 by omega, Finset.sum_range_succ, Finset.sum_range_succ,
      Finset.sum_range_zero]
    interval_cases i <;> interval_cases j <;> norm_num
  refine ⟨?_, fun x hx => ?_⟩
  · ext i j
    simp only [transpose_apply, toMat, e _ _ i.2 j.2, e _ _ j.2 i.2]
    simp only [eq_comm]
  · have q : x ⬝ᵥ toMat 10 (svEx ℝ).entry *ᵥ x = ∑ i : Fin 10, x i ^ 2 + ((x 0 + x 1) ^ 2 + (x 2 + x 3) ^ 2 +
        (x 4 + x 5) ^ 2 + (x 6 + x 7) ^ 2 + (x 8 + x 9) ^ 2) := by
      have : toMat 10 (svEx ℝ).entry = fun i j : Fin 10 => if (i : ℕ) = j then (2 : ℝ) else if (i : ℕ) / 2 = (j : ℕ) / 2 then 1 else 0 := by
        funext i j
        exact e i j i.2 j.2
      rw [this]
      show ∑ i : Fin 10, x i * ∑ j : Fin 10, _ * x j = _
      simp [Fin.sum_univ_succ]
      ring
    rw [q]
    obtain ⟨i, hi⟩ := Function.ne_iff.1 hx
    have h1 : 0 < ∑ i : Fin 10, x i ^ 2 :=
      Finset.sum_pos' (fun j _ => sq_nonneg _) ⟨i, Finset.mem_univ _, lt_of_le_of_ne (sq_nonneg _) (Ne.symm (pow_ne_zero 2 hi))⟩
    positivity

/-- drop test `|t|*nrm > tol` over ℚ -/
def svOpsQ (tol : ℚ) : SvOps ℚ := ⟨fun m v => max m |v|, fun nrm t => decide (tol < |t| * nrm)⟩

def svJunkQ : SvJunk ℚ := ⟨fun _ _ => 77, fun _ _ => 55, fun _ => 33, fun _ _ => 99, fun _ => 44⟩

def svRow0 : SvRow ℚ := ⟨0, 0, ⟨0, fun _ => 0⟩, ⟨0, fun _ => 0⟩⟩

example : ((do
    let f ← createSainv (svOpsQ 0) svJunkQ (svEx ℚ) ⟨10, fun _ => svRow0⟩ ⟨10, fun _ => svRow0⟩ ⟨10, fun _ => 66⟩
    psolveSainv id id 10 f.W f.Z f.D ⟨10, fun _ => 1⟩ ⟨10, fun k => 3 * k⟩ ⟨10, fun _ => 8⟩).map Arr.toList) =
      some [-1, 2, 1, 4, 3, 6, 5, 8, 7, 10] := by
  decide +kernel

/-- order 10, `[-1,2,-1]` -/
def svTri : Csr ℚ := ⟨10, 10, 28, .ofList [0, 2, 5, 8, 11, 14, 17, 20, 23, 26, 28],
  .ofList [0, 1, 0, 1, 2, 1, 2, 3, 2, 3, 4, 3, 4, 5, 4, 5, 6, 5, 6, 7, 6, 7, 8, 7, 8, 9, 8, 9],
  .ofList [2, -1, -1, 2, -1, -1, 2, -1, -1, 2, -1, -1, 2, -1, -1, 2, -1, -1, 2, -1, -1, 2, -1, -1, 2, -1, -1, 2]⟩

/-- without dropping the rows grow (`realloc` from room 1) and the system is solved exactly -/
example : ((do
    let f ← createSainv (svOpsQ 0) svJunkQ svTri ⟨10, fun _ => svRow0⟩ ⟨10, fun _ => svRow0⟩ ⟨10, fun _ => 66⟩
    let x ← psolveSainv id id 10 f.W f.Z f.D ⟨10, fun _ => 1⟩ ⟨10, fun _ => 1⟩ ⟨10, fun _ => 8⟩
    pure ((f.W.get 9).nnz, (f.W.get 9).ma, x)).map fun (r : ℕ × ℕ × Arr ℚ) => (r.1, r.2.1, r.2.2.toList)) =
      some (10, 10, [5, 9, 12, 14, 15, 15, 14, 12, 9, 5]) := by
  decide +kernel

/-- with dropping it is not, but the pivots are positive -/
example : ((do
    let f ← createSainv (svOpsQ (1/4)) svJunkQ svTri ⟨10, fun _ => svRow0⟩ ⟨10, fun _ => svRow0⟩ ⟨10, fun _ => 66⟩
    let x ← psolveSainv id id 10 f.W f.Z f.D ⟨10, fun _ => 1⟩ ⟨10, fun _ => 1⟩ ⟨10, fun _ => 8⟩
    pure (decide ((f.W.get 9).nnz < 10), f.D.toList.all fun v => decide (0 < v), decide (x.toList = [5, 9, 12, 14, 15, 15, 14, 12, 9, 5])))) =
      some (true, true, false) := by
  decide +kernel

/-- the hypotheses of the theorem on CG -/
example : (svEx ℝ).WF ∧ (svEx ℝ).np = (svEx ℝ).n ∧ 10 ≤ (svEx ℝ).n ∧ Spd (toMat (svEx ℝ).n (svEx ℝ).entry) :=
  ⟨svEx_wf ℝ, rfl, le_rfl, svEx_spd⟩

/-- the pivots of `sainv_solves` -/
example : ∀ i, i < (svEx ℝ).n → (biconj (svEx ℝ).n (svEx ℝ).entry (fun _ t => t) i).piv (svEx ℝ).n (svEx ℝ).entry i ≠ 0 :=
  fun _ hi => (biconj_piv_pos svEx_spd (fun _ => rfl) hi).ne'

/-- zero tolerance drops only zeros -/
theorem svEx_keep (i : ℕ) (hi : i < (svEx ℚ).n) (t : ℚ) :
    (svOpsQ 0).keep ((svEx ℚ).svNrm (svOpsQ 0) i) t = false → t = 0 := by
  have h : 0 < (svEx ℚ).svNrm (svOpsQ 0) i := by
    have : ∀ i, i < 10 → 0 < (svEx ℚ).svNrm (svOpsQ 0) i := by decide +kernel
    exact this i hi
  simp only [svOpsQ, decide_eq_false_iff_not, not_lt] at h ⊢
  intro h2
  by_contra hne
  exact absurd (mul_pos (abs_pos.2 hne) h) (not_lt.2 h2)

end Lis
