import Verif.Spec.Converge
import Mathlib.Algebra.Order.BigOperators.Ring.Finset
import Mathlib.Analysis.Real.Sqrt
import Mathlib.Analysis.SpecificLimits.Basic
import Mathlib.Tactic.Linarith
import Mathlib.Tactic.LinearCombination

namespace Lis
open Finset
variable {n : ℕ} {a t : ℕ → ℕ → ℝ} {D b xs : ℕ → ℝ}

/-- one sweep with `M = D + t` -/
def Sweeps (n : ℕ) (a t : ℕ → ℕ → ℝ) (D b x x' : ℕ → ℝ) : Prop :=
  ∀ i, i < n → D i * (x' i - x i) + ∑ j ∈ range n, t i j * (x' j - x j) = b i - ∑ j ∈ range n, a i j * x j

/-- the rest `A - M` of the splitting -/
noncomputable def restOf (a t : ℕ → ℕ → ℝ) (D : ℕ → ℝ) (i j : ℕ) : ℝ := a i j - t i j - if i = j then D i else 0

theorem Sweeps.err (hxs : Solves n a b xs) {x x' : ℕ → ℝ} (h : Sweeps n a t D b x x') {i : ℕ} (hi : i < n) :
    D i * (x' i - xs i) = -(∑ j ∈ range n, t i j * (x' j - xs j)) - ∑ j ∈ range n, restOf a t D i j * (x j - xs j) := by
  have h1 := h i hi
  rw [← hxs i hi] at h1
  have e1 : ∑ j ∈ range n, restOf a t D i j * (x j - xs j) =
      ∑ j ∈ range n, a i j * (x j - xs j) - ∑ j ∈ range n, t i j * (x j - xs j) - D i * (x i - xs i) := by
    rw [← Finset.sum_sub_distrib]
    have : D i * (x i - xs i) = ∑ j ∈ range n, if i = j then D i * (x j - xs j) else 0 := by
      rw [Finset.sum_ite_eq (range n) i, if_pos (mem_range.2 hi)]
    rw [this, ← Finset.sum_sub_distrib]
    refine sum_congr rfl fun j _ => ?_
    unfold restOf
    split <;> ring
  rw [e1]
  simp only [mul_sub, sum_sub_distrib] at h1 ⊢
  linarith

theorem Sweeps.contract (ht : ∀ i j, i < n → t i j ≠ 0 → j < i) (hD : ∀ i, i < n → D i ≠ 0) {q E : ℝ} (hq : q ≤ 1)
    (hE : 0 ≤ E) (hdom : ∀ i, i < n → ∑ j ∈ range n, |t i j| + ∑ j ∈ range n, |restOf a t D i j| ≤ q * |D i|)
    (hxs : Solves n a b xs) {x x' : ℕ → ℝ} (h : Sweeps n a t D b x x') (hx : ∀ i, i < n → |x i - xs i| ≤ E) :
    ∀ i, i < n → |x' i - xs i| ≤ q * E := by
  intro i
  induction i using Nat.strong_induction_on with
  | _ i ih =>
    intro hi
    have e := h.err hxs hi
    have h1 : |D i| * |x' i - xs i| ≤ ∑ j ∈ range n, |t i j| * E + ∑ j ∈ range n, |restOf a t D i j| * E := by
      rw [← abs_mul, e]
      refine (abs_sub _ _).trans ?_
      rw [abs_neg]
      refine add_le_add ((abs_sum_le_sum_abs _ _).trans (sum_le_sum fun j hj => ?_))
        ((abs_sum_le_sum_abs _ _).trans (sum_le_sum fun j hj => ?_))
      · rw [abs_mul]
        by_cases h0 : t i j = 0
        · rw [h0, abs_zero, zero_mul, zero_mul]
        · refine mul_le_mul_of_nonneg_left ?_ (abs_nonneg _)
          refine (ih j (ht i j hi h0) (mem_range.1 hj)).trans ?_
          nlinarith
      · rw [abs_mul]
        exact mul_le_mul_of_nonneg_left (hx j (mem_range.1 hj)) (abs_nonneg _)
    rw [← sum_mul, ← sum_mul, ← add_mul] at h1
    have hp : 0 < |D i| := abs_pos.2 (hD i hi)
    have h2 : |D i| * |x' i - xs i| ≤ |D i| * (q * E) := by
      refine h1.trans ?_
      calc _ ≤ q * |D i| * E := mul_le_mul_of_nonneg_right (hdom i hi) hE
        _ = _ := by ring
    exact le_of_mul_le_mul_left h2 hp

theorem sq_sum_le (f : ℕ → ℝ) : Real.sqrt (∑ i ∈ range n, f i * f i) ≤ ∑ i ∈ range n, |f i| := by
  refine Real.sqrt_le_iff.2 ⟨sum_nonneg fun i _ => abs_nonneg _, ?_⟩
  induction n with
  | zero => simp
  | succ n ih =>
    rw [sum_range_succ, sum_range_succ, add_sq, sq_abs]
    have : 0 ≤ ∑ i ∈ range n, |f i| := sum_nonneg fun i _ => abs_nonneg _
    nlinarith [mul_nonneg this (abs_nonneg (f n))]

theorem resid_le (hxs : Solves n a b xs) {x : ℕ → ℝ} {E : ℝ} (hx : ∀ i, i < n → |x i - xs i| ≤ E) :
    Real.sqrt (∑ i ∈ range n, (b i - ∑ j ∈ range n, a i j * x j) * (b i - ∑ j ∈ range n, a i j * x j)) ≤
      (∑ i ∈ range n, ∑ j ∈ range n, |a i j|) * E := by
  refine (sq_sum_le _).trans ?_
  rw [sum_mul]
  refine sum_le_sum fun i hi => ?_
  rw [← hxs i (mem_range.1 hi), ← sum_sub_distrib, sum_mul]
  refine (abs_sum_le_sum_abs _ _).trans (sum_le_sum fun j hj => ?_)
  rw [← mul_sub, abs_mul, abs_sub_comm]
  exact mul_le_mul_of_nonneg_left (hx j (mem_range.1 hj)) (abs_nonneg _)

theorem abs_le_sqrt_sum {f : ℕ → ℝ} {i : ℕ} (hi : i < n) : |f i| ≤ Real.sqrt (∑ j ∈ range n, f j * f j) := by
  refine Real.abs_le_sqrt ?_
  rw [pow_two]
  exact single_le_sum (f := fun j => f j * f j) (fun j _ => mul_self_nonneg _) (mem_range.2 hi)

/-- for a strictly diagonally dominant matrix the residual bounds the error -/
theorem dom_bound {δ E : ℝ} (hδ : ∀ i, i < n → offDiag n a i + δ ≤ |a i i|) {e : ℕ → ℝ} (hE : 0 ≤ E)
    (hr : ∀ i, i < n → |∑ j ∈ range n, a i j * e j| ≤ E) : ∀ i, i < n → δ * |e i| ≤ E := by
  intro i hi
  obtain ⟨m, hm, hmax⟩ := exists_max_image (range n) (fun j => |e j|) ⟨i, mem_range.2 hi⟩
  by_cases hd : δ ≤ 0
  · exact (mul_nonpos_of_nonpos_of_nonneg hd (abs_nonneg _)).trans hE
  push Not at hd
  have h1 := hr m (mem_range.1 hm)
  rw [← add_sum_erase _ _ hm] at h1
  have h2 : |∑ j ∈ (range n).erase m, a m j * e j| ≤ offDiag n a m * |e m| := by
    unfold offDiag
    rw [sum_mul]
    refine (abs_sum_le_sum_abs _ _).trans (sum_le_sum fun j hj => ?_)
    rw [abs_mul]
    exact mul_le_mul_of_nonneg_left (hmax j (mem_of_mem_erase hj)) (abs_nonneg _)
  have h3 : |a m m| * |e m| ≤ E + offDiag n a m * |e m| := by
    rw [← abs_mul]
    have := abs_sub (a m m * e m + ∑ j ∈ (range n).erase m, a m j * e j) (∑ j ∈ (range n).erase m, a m j * e j)
    rw [add_sub_cancel_right] at this
    linarith
  have h4 := mul_le_mul_of_nonneg_right (hδ m (mem_range.1 hm)) (abs_nonneg (e m))
  have h5 := mul_le_mul_of_nonneg_left (hmax i (mem_range.2 hi)) hd.le
  rw [add_mul] at h4
  linarith

theorem StrictDom.margin (h : StrictDom n a) : ∃ δ, 0 < δ ∧ ∀ i, i < n → offDiag n a i + δ ≤ |a i i| := by
  by_cases hn : n = 0
  · exact ⟨1, one_pos, fun i hi => by omega⟩
  obtain ⟨m, hm, hmin⟩ := exists_min_image (range n) (fun i => |a i i| - offDiag n a i) ⟨0, mem_range.2 (by omega)⟩
  refine ⟨|a m m| - offDiag n a m, sub_pos.2 (h m (mem_range.1 hm)), fun i hi => ?_⟩
  have := hmin i (mem_range.2 hi)
  linarith

theorem exists_factor {s d : ℕ → ℝ} (h0 : ∀ i, i < n → 0 ≤ s i) (h : ∀ i, i < n → s i < d i) :
    ∃ q, 0 ≤ q ∧ q < 1 ∧ ∀ i, i < n → s i ≤ q * d i := by
  by_cases hn : n = 0
  · exact ⟨0, le_rfl, one_pos, fun i hi => by omega⟩
  obtain ⟨m, hm, hmax⟩ := exists_max_image (range n) (fun i => s i / d i) ⟨0, mem_range.2 (by omega)⟩
  have hd : ∀ i, i < n → 0 < d i := fun i hi => (h0 i hi).trans_lt (h i hi)
  have hm' := mem_range.1 hm
  refine ⟨s m / d m, div_nonneg (h0 m hm') (hd m hm').le, (div_lt_one (hd m hm')).2 (h m hm'), fun i hi => ?_⟩
  exact (div_le_iff₀ (hd i hi)).1 (hmax i (mem_range.2 hi))

/-- the sum that must be dominated, for the relaxed splitting -/
theorem rest_sum (hD : ∀ i, i < n → D i ≠ 0) {om : ℝ} (h0 : 0 < om) (h1 : om ≤ 1)
    (hd : ∀ i, i < n → D i = a i i / om) (hta : ∀ i j, i < n → j < n → t i j = 0 ∨ t i j = a i j)
    (ht : ∀ i j, i < n → t i j ≠ 0 → j < i) {i : ℕ} (hi : i < n) :
    ∑ j ∈ range n, |t i j| + ∑ j ∈ range n, |restOf a t D i j| = offDiag n a i + (|D i| - |a i i|) := by
  rw [← sum_add_distrib, ← add_sum_erase _ _ (mem_range.2 hi), add_comm]
  congr 1
  · unfold offDiag
    refine sum_congr rfl fun j hj => ?_
    have hne : i ≠ j := (ne_of_mem_erase hj).symm
    unfold restOf
    rw [if_neg hne, sub_zero]
    rcases hta i j hi (mem_range.1 (mem_of_mem_erase hj)) with h | h <;> rw [h] <;> simp
  · have htz : t i i = 0 := by
      by_contra h
      exact lt_irrefl _ (ht i i hi h)
    unfold restOf
    rw [if_pos rfl, htz, abs_zero, zero_add, sub_zero]
    have e : a i i = om * D i := by rw [hd i hi]; field_simp
    rw [e, show om * D i - D i = -((1 - om) * D i) by ring, abs_neg, abs_mul, abs_mul, abs_of_pos h0,
      abs_of_nonneg (sub_nonneg.2 h1)]
    ring

/-- the energy lost in a sweep of SOR -/
theorem energy_sweep (hsym : ∀ i j, i < n → j < n → a i j = a j i)
    (ht : ∀ i j, i < n → j < n → t i j = if j < i then a i j else 0) (hxs : Solves n a b xs) {x x' : ℕ → ℝ}
    (h : Sweeps n a t D b x x') :
    energyN n a xs x' = energyN n a xs x - ∑ i ∈ range n, (2 * D i - a i i) * ((x' i - x i) * (x' i - x i)) := by
  obtain ⟨y, hy⟩ : ∃ y : ℕ → ℝ, y = fun i => x' i - x i := ⟨_, rfl⟩
  obtain ⟨e, he⟩ : ∃ e : ℕ → ℝ, e = fun i => x i - xs i := ⟨_, rfl⟩
  have hyi : ∀ i, x' i - x i = y i := fun i => by rw [hy]
  have hei : ∀ i, x i - xs i = e i := fun i => by rw [he]
  have hei' : ∀ i, x' i - xs i = e i + y i := fun i => by rw [← hyi, ← hei]; ring
  unfold energyN
  simp only [hyi, hei, hei']
  have hs : ∀ i, i < n → D i * y i + ∑ j ∈ range n, t i j * y j = -∑ j ∈ range n, a i j * e j := by
    intro i hi
    have := h i hi
    rw [← hxs i hi, ← sum_sub_distrib] at this
    simp only [hyi] at this
    rw [this, ← sum_neg_distrib]
    exact sum_congr rfl fun j _ => by rw [← hei]; ring
  have s1 : ∑ i ∈ range n, ∑ j ∈ range n, (e i + y i) * a i j * (e j + y j) =
      ∑ i ∈ range n, ∑ j ∈ range n, e i * a i j * e j + 2 * ∑ i ∈ range n, ∑ j ∈ range n, y i * (a i j * e j) +
        ∑ i ∈ range n, ∑ j ∈ range n, y i * a i j * y j := by
    have c : ∑ i ∈ range n, ∑ j ∈ range n, y i * (a i j * e j) = ∑ i ∈ range n, ∑ j ∈ range n, e i * (a i j * y j) := by
      rw [sum_comm]
      refine sum_congr rfl fun i hi => sum_congr rfl fun j hj => ?_
      rw [hsym j i (mem_range.1 hj) (mem_range.1 hi)]; ring
    rw [two_mul]
    nth_rewrite 2 [c]
    simp only [← sum_add_distrib]
    exact sum_congr rfl fun i _ => sum_congr rfl fun j _ => by ring
  have s2 : ∑ i ∈ range n, ∑ j ∈ range n, y i * (a i j * e j) =
      -∑ i ∈ range n, D i * (y i * y i) - ∑ i ∈ range n, ∑ j ∈ range n, y i * (t i j * y j) := by
    rw [← sum_neg_distrib, ← sum_sub_distrib]
    refine sum_congr rfl fun i hi => ?_
    rw [← mul_sum, ← mul_sum]
    linear_combination y i * hs i (mem_range.1 hi)
  have s3 : 2 * ∑ i ∈ range n, ∑ j ∈ range n, y i * (t i j * y j) =
      ∑ i ∈ range n, ∑ j ∈ range n, y i * a i j * y j - ∑ i ∈ range n, a i i * (y i * y i) := by
    have c : ∑ i ∈ range n, ∑ j ∈ range n, y i * (t i j * y j) = ∑ i ∈ range n, ∑ j ∈ range n, y i * (t j i * y j) := by
      rw [sum_comm]
      exact sum_congr rfl fun i hi => sum_congr rfl fun j hj => by ring
    rw [two_mul]
    nth_rewrite 2 [c]
    rw [← sum_add_distrib, ← sum_sub_distrib]
    refine sum_congr rfl fun i hi => ?_
    have : a i i * (y i * y i) = ∑ j ∈ range n, if i = j then a i j * (y i * y j) else 0 := by
      rw [Finset.sum_ite_eq (range n) i, if_pos hi]
    rw [this, ← sum_add_distrib, ← sum_sub_distrib]
    refine sum_congr rfl fun j hj => ?_
    have hi' := mem_range.1 hi
    have hj' := mem_range.1 hj
    rw [ht i j hi' hj', ht j i hj' hi']
    rcases lt_trichotomy i j with h | h | h
    · rw [if_neg (by omega), if_pos h, if_neg (by omega), hsym j i hj' hi']; ring
    · subst h; simp; ring
    · rw [if_pos h, if_neg (by omega), if_neg (by omega)]; ring
  have s4 : ∑ i ∈ range n, (2 * D i - a i i) * (y i * y i) =
      2 * ∑ i ∈ range n, D i * (y i * y i) - ∑ i ∈ range n, a i i * (y i * y i) := by
    rw [mul_sum, ← sum_sub_distrib]
    exact sum_congr rfl fun i _ => by ring
  rw [s1, s4]
  linear_combination 2 * s2 - s3

/-- the residual is bounded by the correction -/
theorem sweep_resid {x x' : ℕ → ℝ} (h : Sweeps n a t D b x x') :
    ∑ i ∈ range n, (b i - ∑ j ∈ range n, a i j * x j) * (b i - ∑ j ∈ range n, a i j * x j) ≤
      (∑ i ∈ range n, ∑ j ∈ range n, ((if i = j then D i else 0) + t i j) ^ 2) *
        ∑ j ∈ range n, (x' j - x j) ^ 2 := by
  rw [sum_mul]
  refine sum_le_sum fun i hi => ?_
  rw [← h i (mem_range.1 hi)]
  have e : D i * (x' i - x i) + ∑ j ∈ range n, t i j * (x' j - x j) =
      ∑ j ∈ range n, ((if i = j then D i else 0) + t i j) * (x' j - x j) := by
    simp only [add_mul, sum_add_distrib, ite_mul, zero_mul]
    rw [Finset.sum_ite_eq (range n) i, if_pos hi]
  rw [e, ← pow_two]
  exact sum_mul_sq_le_sq_mul_sq _ _ _

end Lis
