import Verif.Base.C
import Mathlib.Algebra.BigOperators.Intervals
import Mathlib.Algebra.BigOperators.Ring.Finset
import Mathlib.Algebra.BigOperators.GroupWithZero.Action
import Mathlib.Tactic.Ring

/-! Derived loop rules: element-wise fill, accumulation, scatter-add. -/

namespace Lis
open Finset
variable {R : Type*}

/-- `t += g(j)` accumulated over a loop -/
theorem Ok_loop_sum [AddCommMonoid R] {lo hi : ℕ} {t0 : R} {f : ℕ → R → Option R} (g : ℕ → R)
    {Q : R → Prop}
    (hs : ∀ j t, lo ≤ j → j < hi → f j t = some (t + g j))
    (hq : Q (t0 + ∑ j ∈ Ico lo hi, g j)) : Ok (loop lo hi t0 f) Q := by
  rcases Nat.le_total lo hi with h | h
  · refine Ok_loop_le (fun i t => t = t0 + ∑ j ∈ Ico lo i, g j) h (by simp) ?_ ?_
    · intro i s h1 h2 hi
      rw [hs i s h1 h2]
      simp only [Ok_some]
      rw [hi, Finset.sum_Ico_succ_top h1, add_assoc]
    · intro s hs; rw [hs]; exact hq
  · rw [loop_empty h]; simpa [Finset.Ico_eq_empty_of_le h] using hq

/-- as `Ok_loop_sum`, body given by its outcome -/
theorem Ok_loop_sum' [AddCommMonoid R] {lo hi : ℕ} {t0 : R} {f : ℕ → R → Option R} (g : ℕ → R)
    {Q : R → Prop}
    (hs : ∀ j t, lo ≤ j → j < hi → Ok (f j t) (fun t' => t' = t + g j))
    (hq : Q (t0 + ∑ j ∈ Ico lo hi, g j)) : Ok (loop lo hi t0 f) Q := by
  refine Ok_loop_sum g (fun j t h1 h2 => ?_) hq
  obtain ⟨a, ha, rfl⟩ := hs j t h1 h2
  exact ha

/-- each iteration `i` sets exactly element `i` (to `g i`) -/
theorem Ok_loop_fill {α : Type*} {lo hi : ℕ} {y0 : Arr α} {f : ℕ → Arr α → Option (Arr α)}
    (g : ℕ → α) {Q : Arr α → Prop}
    (hs : ∀ i y, lo ≤ i → i < hi → y.size = y0.size →
      (∀ j, ¬ (lo ≤ j ∧ j < i) → y.get j = y0.get j) →
      (∀ j, lo ≤ j → j < i → y.get j = g j) →
      Ok (f i y) (fun y' => y' = y.set i (g i)))
    (hq : ∀ y : Arr α, y.size = y0.size → (∀ j, lo ≤ j → j < hi → y.get j = g j) →
      (∀ j, ¬ (lo ≤ j ∧ j < hi) → y.get j = y0.get j) → Q y) :
    Ok (loop lo hi y0 f) Q := by
  refine Ok_loop (fun i y => y.size = y0.size ∧ (∀ j, lo ≤ j → j < i → y.get j = g j) ∧
      (∀ j, ¬ (lo ≤ j ∧ j < i) → y.get j = y0.get j)) ?_ ?_ ?_
  · exact ⟨rfl, fun j h1 h2 => absurd h1 (by omega), fun _ _ => rfl⟩
  · rintro i y h1 h2 ⟨hsz, hg, ho⟩
    refine (hs i y h1 h2 hsz ho hg).mono ?_
    rintro y' rfl
    refine ⟨hsz, ?_, ?_⟩
    · intro j hj hj'
      rw [Arr.set_get]; split
      · next h => rw [h]
      · exact hg j hj (by omega)
    · intro j hj
      rw [Arr.set_get_ne _ _ (by omega)]; exact ho j (by omega)
  · rintro y ⟨h1, h2, h3⟩
    exact hq y h1 (fun j a b => h2 j a (by omega)) (fun j hj => h3 j (by omega))

/-- each iteration adds `δ i j` to element `j` (for all `j`) -/
theorem Ok_loop_add [AddCommMonoid R] {lo hi : ℕ} {y0 : Arr R} {f : ℕ → Arr R → Option (Arr R)}
    (δ : ℕ → ℕ → R) {Q : Arr R → Prop}
    (hs : ∀ i y, lo ≤ i → i < hi → y.size = y0.size →
      Ok (f i y) (fun y' => y'.size = y0.size ∧ ∀ j, y'.get j = y.get j + δ i j))
    (hq : ∀ y : Arr R, y.size = y0.size →
      (∀ j, y.get j = y0.get j + ∑ i ∈ Ico lo hi, δ i j) → Q y) :
    Ok (loop lo hi y0 f) Q := by
  rcases Nat.le_total lo hi with h | h
  · refine Ok_loop_le (fun i y => y.size = y0.size ∧
        ∀ j, y.get j = y0.get j + ∑ k ∈ Ico lo i, δ k j) h (by simp) ?_ ?_
    · rintro i y h1 h2 ⟨hsz, hy⟩
      refine (hs i y h1 h2 hsz).mono ?_
      rintro y' ⟨h3, h4⟩
      refine ⟨h3, fun j => ?_⟩
      rw [h4, hy, Finset.sum_Ico_succ_top h1, add_assoc]
    · rintro y ⟨h1, h2⟩; exact hq y h1 h2
  · rw [loop_empty h]
    simp only [Ok_some]
    exact hq y0 rfl (by simp [Finset.Ico_eq_empty_of_le h])

/-- `y[t] += c` -/
theorem set_add_get [AddCommMonoid R] (y : Arr R) (t : ℕ) (c : R) (j : ℕ) :
    (y.set t (y.get t + c)).get j = y.get j + (if t = j then c else 0) := by
  rw [Arr.set_get]
  by_cases h : j = t
  · subst h; simp
  · rw [if_neg h, if_neg (fun h' => h h'.symm), add_zero]

theorem sum_Ico_zero [AddCommMonoid R] (n : ℕ) (f : ℕ → R) :
    ∑ i ∈ Ico 0 n, f i = ∑ i ∈ range n, f i := by rw [Finset.range_eq_Ico]

/-- a sum over stored elements, regrouped by column -/
theorem sum_by_col [NonUnitalNonAssocSemiring R] {m : ℕ} {S : Finset ℕ} {c : ℕ → ℕ} {v x : ℕ → R}
    (h : ∀ k ∈ S, c k < m) :
    ∑ k ∈ S, v k * x (c k) = ∑ j ∈ range m, (∑ k ∈ S, if c k = j then v k else 0) * x j := by
  simp_rw [Finset.sum_mul, ite_mul, zero_mul]
  rw [Finset.sum_comm]
  refine Finset.sum_congr rfl fun k hk => ?_
  rw [Finset.sum_ite_eq (range m) (c k)]
  simp [h k hk]

end Lis
