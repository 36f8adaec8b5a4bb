import Verif.Spec.CgExact
import Mathlib.LinearAlgebra.Dimension.Finite
import Mathlib.LinearAlgebra.Dimension.Constructions
import Mathlib.LinearAlgebra.FiniteDimensional.Defs
import Mathlib.Tactic.Ring
import Mathlib.Tactic.Linarith
import Mathlib.Tactic.FieldSimp
import Mathlib.Tactic.LinearCombination

namespace Lis
variable {R : Type} {n : ℕ} [Field R] [LinearOrder R] [IsStrictOrderedRing R]

open Matrix

theorem Spd.swap {A : Matrix (Fin n) (Fin n) R} (hA : Spd A) (x y : Fin n → R) : x ⬝ᵥ A *ᵥ y = y ⬝ᵥ A *ᵥ x := by
  rw [dotProduct_mulVec, ← mulVec_transpose, hA.symm, dotProduct_comm]

/-- vectors conjugate and positive for `A` are independent, so there are at most `n` -/
theorem conj_card {A : Matrix (Fin n) (Fin n) R} {k : ℕ} (P : Fin k → Fin n → R)
    (hc : ∀ i j, i ≠ j → P i ⬝ᵥ A *ᵥ P j = 0) (hp : ∀ i, P i ⬝ᵥ A *ᵥ P i ≠ 0) : k ≤ n := by
  have hli : LinearIndependent R P := by
    rw [Fintype.linearIndependent_iff]
    intro g hg j
    have h := congrArg (fun v => v ⬝ᵥ A *ᵥ P j) hg
    simp only [sum_dotProduct, smul_dotProduct, zero_dotProduct, smul_eq_mul] at h
    rw [Finset.sum_eq_single j] at h
    · exact (mul_eq_zero.1 h).resolve_right (hp j)
    · intro i _ hij
      rw [hc i j hij, mul_zero]
    · intro hj; exact absurd (Finset.mem_univ _) hj
  simpa using hli.fintype_card_le_finrank

/-- the residuals `r 0 … r k` and directions `p 1 … p k` of CG -/
structure CgSeq (A M : Matrix (Fin n) (Fin n) R) (k : ℕ) (r p : ℕ → Fin n → R) : Prop where
  dir : ∀ j, j < k → ∃ b : R, p (j + 1) = M *ᵥ r j + b • p j
  p0 : p 0 = 0
  res : ∀ j, j < k → r (j + 1) = r j - ((r j ⬝ᵥ M *ᵥ r j) / (p (j + 1) ⬝ᵥ A *ᵥ p (j + 1))) • A *ᵥ p (j + 1)
  rpos : ∀ j, j < k → 0 < r j ⬝ᵥ M *ᵥ r j
  ppos : ∀ j, j < k → 0 < p (j + 1) ⬝ᵥ A *ᵥ p (j + 1)
  conj : ∀ i j, i < j → j ≤ k → p i ⬝ᵥ A *ᵥ p j = 0
  orth : ∀ i, i ≤ k → p i ⬝ᵥ r k = 0

variable {A M : Matrix (Fin n) (Fin n) R} {k : ℕ} {r p : ℕ → Fin n → R}

theorem CgSeq.card (h : CgSeq A M k r p) (hA : Spd A) : k ≤ n := by
  refine conj_card (A := A) (fun i : Fin k => p (i + 1)) ?_ fun i => (h.ppos i i.2).ne'
  intro i j hij
  rcases Nat.lt_or_gt_of_ne (fun e => hij (Fin.ext e)) with hlt | hgt
  · exact h.conj _ _ (by omega) (by omega)
  · rw [hA.swap]
    exact h.conj _ _ (by omega) (by omega)

/-- `z_k` is orthogonal to the earlier residuals -/
theorem CgSeq.zr (h : CgSeq A M k r p) (hM : Spd M) {j : ℕ} (hj : j < k) : (M *ᵥ r k) ⬝ᵥ r j = 0 := by
  obtain ⟨b, hb⟩ := h.dir j hj
  have e : M *ᵥ r j = p (j + 1) - b • p j := by rw [hb]; simp
  rw [dotProduct_comm, hM.swap, e, dotProduct_sub, dotProduct_smul, dotProduct_comm, h.orth _ (by omega),
    dotProduct_comm, h.orth _ (by omega)]
  simp

/-- one more step -/
theorem CgSeq.step (h : CgSeq A M k r p) (hA : Spd A) (hM : Spd M) (hr : r k ≠ 0) {b : R} {p' r' : Fin n → R}
    (hb : 0 < k → b = (r k ⬝ᵥ M *ᵥ r k) / (r (k - 1) ⬝ᵥ M *ᵥ r (k - 1)))
    (hp' : p' = M *ᵥ r k + b • p k)
    (hr' : r' = r k - ((r k ⬝ᵥ M *ᵥ r k) / (p' ⬝ᵥ A *ᵥ p')) • A *ᵥ p') :
    0 < p' ⬝ᵥ A *ᵥ p' ∧ p' ⬝ᵥ r k = r k ⬝ᵥ M *ᵥ r k ∧ 0 < r k ⬝ᵥ M *ᵥ r k ∧
      CgSeq A M (k + 1) (Function.update r (k + 1) r') (Function.update p (k + 1) p') := by
  have hrho : 0 < r k ⬝ᵥ M *ᵥ r k := hM.pos _ hr
  have hpr : p' ⬝ᵥ r k = r k ⬝ᵥ M *ᵥ r k := by
    rw [hp', add_dotProduct, smul_dotProduct, h.orth k le_rfl, dotProduct_comm]; simp
  have hpp : 0 < p' ⬝ᵥ A *ᵥ p' := by
    refine hA.pos _ ?_
    rintro rfl
    rw [zero_dotProduct] at hpr
    exact hrho.ne hpr
  -- conjugacy
  have hc : ∀ i, i ≤ k → p i ⬝ᵥ A *ᵥ p' = 0 := by
    intro i hi
    rcases Nat.eq_zero_or_pos i with rfl | h0
    · rw [h.p0, zero_dotProduct]
    obtain ⟨j, rfl⟩ : ∃ j, i = j + 1 := ⟨i - 1, by omega⟩
    have hj : j < k := hi
    -- A p = (r_j - r_{j+1}) / a
    have ha := (div_pos (h.rpos j hj) (h.ppos j hj)).ne'
    have e1 : ((r j ⬝ᵥ M *ᵥ r j) / (p (j + 1) ⬝ᵥ A *ᵥ p (j + 1))) * ((M *ᵥ r k) ⬝ᵥ A *ᵥ p (j + 1)) =
        (M *ᵥ r k) ⬝ᵥ r j - (M *ᵥ r k) ⬝ᵥ r (j + 1) := by
      rw [← dotProduct_sub, ← smul_eq_mul, ← dotProduct_smul]
      congr 1
      rw [h.res j hj]; simp
    rw [h.zr hM hj] at e1
    rw [hA.swap, hp', add_dotProduct, smul_dotProduct, smul_eq_mul]
    rcases Nat.lt_or_ge (j + 1) k with hlt | hge
    · rw [h.zr hM hlt, sub_zero] at e1
      rw [(mul_eq_zero.1 e1).resolve_left ha, hA.swap, h.conj _ _ hlt le_rfl]; simp
    · obtain rfl : k = j + 1 := by omega
      have hb' := hb (by omega)
      simp only [Nat.add_sub_cancel] at hb'
      rw [hb']
      have e2 : (M *ᵥ r (j + 1)) ⬝ᵥ r (j + 1) = r (j + 1) ⬝ᵥ M *ᵥ r (j + 1) := dotProduct_comm _ _
      rw [e2] at e1
      have h1 := (h.rpos j hj).ne'
      have h2 := (h.ppos j hj).ne'
      field_simp at e1 ⊢
      linear_combination e1
  have hpA : ∀ i, i ≤ k → (Function.update p (k + 1) p') i = p i := fun i hi =>
    Function.update_of_ne (by omega) _ _
  have hrA : ∀ i, i ≤ k → (Function.update r (k + 1) r') i = r i := fun i hi =>
    Function.update_of_ne (by omega) _ _
  refine ⟨hpp, hpr, hrho, ?_, ?_, ?_, ?_, ?_, ?_, ?_⟩
  · intro j hj
    rw [hpA j (by omega), hrA j (by omega)]
    rcases Nat.lt_or_ge j k with hlt | hge
    · rw [hpA (j + 1) (by omega)]
      exact h.dir j hlt
    · obtain rfl : j = k := by omega
      exact ⟨b, by rw [Function.update_self, hp']⟩
  · rw [hpA 0 (by omega), h.p0]
  · intro j hj
    rw [hrA j (by omega)]
    rcases Nat.lt_or_ge j k with hlt | hge
    · rw [hpA (j + 1) (by omega), hrA (j + 1) (by omega)]
      exact h.res j hlt
    · obtain rfl : j = k := by omega
      rw [Function.update_self, Function.update_self, hr']
  · intro j hj
    rw [hrA j (by omega)]
    rcases Nat.lt_or_ge j k with hlt | hge
    · exact h.rpos j hlt
    · obtain rfl : j = k := by omega
      exact hrho
  · intro j hj
    rcases Nat.lt_or_ge j k with hlt | hge
    · rw [hpA (j + 1) (by omega)]
      exact h.ppos j hlt
    · obtain rfl : j = k := by omega
      rw [Function.update_self]
      exact hpp
  · intro i j hij hj
    rw [hpA i (by omega)]
    rcases Nat.lt_or_ge j (k + 1) with hlt | hge
    · rw [hpA j (by omega)]
      exact h.conj i j hij (by omega)
    · obtain rfl : j = k + 1 := by omega
      rw [Function.update_self]
      exact hc i (by omega)
  · intro i hi
    rw [Function.update_self]
    rcases Nat.lt_or_ge i (k + 1) with hlt | hge
    · rw [hpA i (by omega), hr', dotProduct_sub, dotProduct_smul, h.orth i (by omega), hc i (by omega)]
      simp
    · obtain rfl : i = k + 1 := by omega
      rw [Function.update_self, hr', dotProduct_sub, dotProduct_smul, hpr, smul_eq_mul,
        div_mul_cancel₀ _ hpp.ne', sub_self]

theorem CgSeq.start (r0 : Fin n → R) : CgSeq A M 0 (fun _ => r0) (fun _ => 0) :=
  ⟨fun j hj => by omega, rfl, fun j hj => by omega, fun j hj => by omega, fun j hj => by omega,
    fun i j h1 h2 => by omega, fun i _ => zero_dotProduct _⟩

/-- a step of length `rho / pAp` along `p` does not increase the energy norm of the error -/
theorem energy_step {A : Matrix (Fin n) (Fin n) R} (hA : Spd A) {xs x p r : Fin n → R} {rho : R}
    (hr : r = A *ᵥ xs - A *ᵥ x) (hpp : 0 < p ⬝ᵥ A *ᵥ p) (hpr : p ⬝ᵥ r = rho) :
    energy A xs (x + (rho / (p ⬝ᵥ A *ᵥ p)) • p) ≤ energy A xs x := by
  unfold energy
  have e : x + (rho / (p ⬝ᵥ A *ᵥ p)) • p - xs = (x - xs) + (rho / (p ⬝ᵥ A *ᵥ p)) • p := by abel
  have hr2 : p ⬝ᵥ A *ᵥ (x - xs) = - rho := by
    rw [← hpr, hr, mulVec_sub, ← dotProduct_neg, neg_sub]
  rw [e, mulVec_add, mulVec_smul, add_dotProduct, dotProduct_add, dotProduct_add, smul_dotProduct, smul_dotProduct,
    dotProduct_smul, dotProduct_smul, hA.swap (x - xs) p, hr2]
  simp only [smul_eq_mul]
  have h1 : rho / (p ⬝ᵥ A *ᵥ p) * (rho / (p ⬝ᵥ A *ᵥ p) * (p ⬝ᵥ A *ᵥ p)) = rho * rho / (p ⬝ᵥ A *ᵥ p) := by
    field_simp
  rw [h1]
  have h2 : rho / (p ⬝ᵥ A *ᵥ p) * - rho = - (rho * rho / (p ⬝ᵥ A *ᵥ p)) := by ring
  rw [h2]
  have h3 : 0 ≤ rho * rho / (p ⬝ᵥ A *ᵥ p) := div_nonneg (mul_self_nonneg _) hpp.le
  linarith

end Lis
