import Mathlib.Algebra.BigOperators.Intervals
import Mathlib.Algebra.Module.LinearMap.Defs
import Mathlib.Algebra.Module.BigOperators
import Mathlib.Algebra.Module.Pi
import Mathlib.Data.Matrix.Mul
import Mathlib.Data.Real.Basic
import Mathlib.Tactic.Module
import Mathlib.Tactic.LinearCombination
import Mathlib.Tactic.Linarith

/-! Linear algebra of GMRES: the Givens rotations as rotations of the basis -/

namespace Lis
open Finset

section module
variable {E : Type} [AddCommGroup E] [Module ℝ E]

/-- the last vector of the rotated basis of `V 0, …, V i` -/
def gp (c s : ℕ → ℝ) (V : ℕ → E) : ℕ → E
  | 0 => V 0
  | j + 1 => (-s j) • gp c s V j + c j • V (j + 1)

/-- the other vectors of the rotated basis -/
def gq (c s : ℕ → ℝ) (V : ℕ → E) (j : ℕ) : E := c j • gp c s V j + s j • V (j + 1)

theorem gp_congr {c s c' s' : ℕ → ℝ} {V V' : ℕ → E} : ∀ {i : ℕ}, (∀ j, j < i → c j = c' j ∧ s j = s' j) →
    (∀ j, j ≤ i → V j = V' j) → gp c s V i = gp c' s' V' i := by
  intro i
  induction i with
  | zero => intro _ h; exact h 0 le_rfl
  | succ i ih =>
    intro h1 h2
    simp only [gp]
    rw [ih (fun j hj => h1 j (by omega)) (fun j hj => h2 j (by omega)), (h1 i (by omega)).1, (h1 i (by omega)).2,
      h2 (i + 1) le_rfl]

theorem gq_congr {c s c' s' : ℕ → ℝ} {V V' : ℕ → E} {i : ℕ} (h1 : ∀ j, j ≤ i → c j = c' j ∧ s j = s' j)
    (h2 : ∀ j, j ≤ i + 1 → V j = V' j) : gq c s V i = gq c' s' V' i := by
  unfold gq
  rw [gp_congr (fun j hj => h1 j (by omega)) (fun j hj => h2 j (by omega)), (h1 i le_rfl).1, (h1 i le_rfl).2,
    h2 (i + 1) le_rfl]

theorem gp_split {c s : ℕ → ℝ} {V : ℕ → E} {j : ℕ} (h : c j * c j + s j * s j = 1) :
    gp c s V j = c j • gq c s V j - s j • gp c s V (j + 1) := by
  have e : ∀ (c s : ℝ) (p v : E), c • (c • p + s • v) - s • ((-s) • p + c • v) = (c * c + s * s) • p := by
    intro c s p v; module
  simp only [gq, gp]
  rw [e, h, one_smul]

theorem gv_split {c s : ℕ → ℝ} {V : ℕ → E} {j : ℕ} (h : c j * c j + s j * s j = 1) :
    V (j + 1) = s j • gq c s V j + c j • gp c s V (j + 1) := by
  have e : ∀ (c s : ℝ) (p v : E), s • (c • p + s • v) + c • ((-s) • p + c • v) = (c * c + s * s) • v := by
    intro c s p v; module
  simp only [gq, gp]
  rw [e, h, one_smul]

/-- the triangular system -/
theorem gm_solution {i : ℕ} {H : ℕ → ℕ → ℝ} {q BV : ℕ → E} {y g : ℕ → ℝ}
    (hcol : ∀ j, j ≤ i → BV j = ∑ k ∈ range (j + 1), H k j • q k)
    (hrow : ∀ k, k ≤ i → ∑ j ∈ Ico k (i + 1), H k j * y j = g k) :
    ∑ j ∈ range (i + 1), y j • BV j = ∑ k ∈ range (i + 1), g k • q k := by
  have h1 : ∑ j ∈ range (i + 1), y j • BV j = ∑ j ∈ range (i + 1), ∑ k ∈ range (j + 1), (H k j * y j) • q k := by
    refine sum_congr rfl fun j hj => ?_
    rw [mem_range] at hj
    rw [hcol j (by omega), smul_sum]
    refine sum_congr rfl fun k _ => ?_
    rw [smul_smul, mul_comm]
  have h2 : ∑ k ∈ range (i + 1), g k • q k = ∑ k ∈ range (i + 1), ∑ j ∈ Ico k (i + 1), (H k j * y j) • q k := by
    refine sum_congr rfl fun k hk => ?_
    rw [mem_range] at hk
    rw [← hrow k (by omega), sum_smul]
  rw [h1, h2]
  refine sum_comm' fun j k => ?_
  simp only [mem_range, mem_Ico]
  omega

end module

section dot
variable {n : ℕ}

/-- orthonormal -/
def Orth (V : ℕ → Fin n → ℝ) (i : ℕ) : Prop := ∀ j k, j ≤ i → k ≤ i → V j ⬝ᵥ V k = if j = k then 1 else 0

theorem gp_perp {c s : ℕ → ℝ} {V : ℕ → Fin n → ℝ} {w : Fin n → ℝ} : ∀ {i : ℕ}, (∀ j, j ≤ i → w ⬝ᵥ V j = 0) →
    w ⬝ᵥ gp c s V i = 0 := by
  intro i
  induction i with
  | zero => intro h; exact h 0 le_rfl
  | succ i ih =>
    intro h
    simp only [gp]
    rw [dotProduct_add, dotProduct_smul, dotProduct_smul, ih fun j hj => h j (by omega), h (i + 1) le_rfl]
    simp

theorem gp_unit {c s : ℕ → ℝ} {V : ℕ → Fin n → ℝ} : ∀ {i : ℕ}, Orth V i → (∀ j, j < i → c j * c j + s j * s j = 1) →
    gp c s V i ⬝ᵥ gp c s V i = 1 := by
  intro i
  induction i with
  | zero => intro h _; simpa [gp] using h 0 0 le_rfl le_rfl
  | succ i ih =>
    intro h hr
    have h1 := ih (fun j k hj hk => h j k (by omega) (by omega)) fun j hj => hr j (by omega)
    have h2 : V (i + 1) ⬝ᵥ gp c s V i = 0 := gp_perp fun j hj => by
      rw [h (i + 1) j le_rfl (by omega), if_neg (by omega)]
    have h3 : gp c s V i ⬝ᵥ V (i + 1) = 0 := by rw [dotProduct_comm]; exact h2
    have h4 := h (i + 1) (i + 1) le_rfl le_rfl
    simp only [gp, dotProduct_add, add_dotProduct, dotProduct_smul, smul_dotProduct, h1, h2, h3, h4, if_true, smul_eq_mul]
    linarith [hr i (by omega)]

/-- with an injective operator no column is spanned by the previous ones -/
theorem gm_col_ne {B : (Fin n → ℝ) →ₗ[ℝ] (Fin n → ℝ)} (hB : Function.Injective B) {V q : ℕ → Fin n → ℝ} {i : ℕ}
    {H : ℕ → ℕ → ℝ} (ho : Orth V i) (hcol : ∀ j, j < i → B (V j) = ∑ k ∈ range (j + 1), H k j • q k)
    (hd : ∀ j, j < i → H j j ≠ 0) (h : ℕ → ℝ) (he : B (V i) = ∑ k ∈ range i, h k • q k) : False := by
  have key : ∀ k, k < i → ∃ u, q k = B u ∧ ∀ w : Fin n → ℝ, (∀ j, j ≤ k → w ⬝ᵥ V j = 0) → w ⬝ᵥ u = 0 := by
    intro k
    induction k using Nat.strong_induction_on with
    | _ k ih =>
      intro hk
      have : ∀ k', ∃ u, k' < k → q k' = B u ∧ ∀ w : Fin n → ℝ, (∀ j, j ≤ k' → w ⬝ᵥ V j = 0) → w ⬝ᵥ u = 0 := by
        intro k'
        by_cases hk' : k' < k
        · obtain ⟨u, hu⟩ := ih k' hk' (by omega)
          exact ⟨u, fun _ => hu⟩
        · exact ⟨0, fun h => absurd h hk'⟩
      choose u hu using this
      have hc := hcol k hk
      rw [sum_range_succ] at hc
      refine ⟨(H k k)⁻¹ • (V k - ∑ k' ∈ range k, H k' k • u k'), ?_, fun w hw => ?_⟩
      · rw [map_smul, map_sub, map_sum, hc]
        have : ∑ k' ∈ range k, B (H k' k • u k') = ∑ k' ∈ range k, H k' k • q k' := by
          refine sum_congr rfl fun k' hk' => ?_
          rw [map_smul, ← (hu k' (mem_range.1 hk')).1]
        rw [this, add_sub_cancel_left, smul_smul, inv_mul_cancel₀ (hd k hk), one_smul]
      · rw [dotProduct_smul, dotProduct_sub, hw k le_rfl, dotProduct_sum]
        have : ∑ k' ∈ range k, w ⬝ᵥ (H k' k • u k') = 0 := by
          refine sum_eq_zero fun k' hk' => ?_
          rw [mem_range] at hk'
          rw [dotProduct_smul, (hu k' hk').2 w fun j hj => hw j (by omega)]
          simp
        rw [this]; simp
  have : ∀ k', ∃ u, k' < i → q k' = B u ∧ ∀ w : Fin n → ℝ, (∀ j, j ≤ k' → w ⬝ᵥ V j = 0) → w ⬝ᵥ u = 0 := by
    intro k'
    by_cases hk' : k' < i
    · obtain ⟨u, hu⟩ := key k' hk'
      exact ⟨u, fun _ => hu⟩
    · exact ⟨0, fun h => absurd h hk'⟩
  choose u hu using this
  have e : V i = ∑ k ∈ range i, h k • u k := by
    apply hB
    rw [he, map_sum]
    refine sum_congr rfl fun k hk => ?_
    rw [map_smul, ← (hu k (mem_range.1 hk)).1]
  have h1 := ho i i le_rfl le_rfl
  rw [if_pos rfl] at h1
  have h2 : V i ⬝ᵥ ∑ k ∈ range i, h k • u k = 0 := by
    rw [dotProduct_sum]
    refine sum_eq_zero fun k hk => ?_
    rw [mem_range] at hk
    rw [dotProduct_smul, (hu k hk).2 (V i) fun j hj => by rw [ho i j le_rfl (by omega), if_neg (by omega)]]
    simp
  rw [← e, h1] at h2
  exact one_ne_zero h2

end dot
end Lis
