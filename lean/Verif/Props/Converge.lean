import Verif.Lemmas.Converge
import Verif.Props.ArrayStationary
import Verif.Props.CgArray

/-!
# C45: the stationary solvers converge under the textbook conditions
-/

namespace Lis
open Finset
variable {n : ℕ} {a t : ℕ → ℕ → ℝ} {D b x0 : ℕ → ℝ}

theorem solvable_of_inj (h : ∀ x : ℕ → ℝ, (∀ i, i < n → ∑ j ∈ range n, a i j * x j = 0) → ∀ i, i < n → x i = 0) :
    ∃ xs, Solves n a b xs := by
  have hi : Function.Injective (Matrix.toLin' (toMat n a)) := by
    rw [injective_iff_map_eq_zero]
    intro x hx
    funext i
    have := h (fun j => if hj : j < n then x ⟨j, hj⟩ else 0) (fun k hk => by
      rw [Finset.sum_range]
      have := congrFun hx ⟨k, hk⟩
      rw [Matrix.toLin'_apply] at this
      simpa [Matrix.mulVec, dotProduct] using this) i i.2
    simpa using this
  obtain ⟨x, hx⟩ := (LinearMap.injective_iff_surjective.1 hi) fun i : Fin n => b i
  refine ⟨fun j => if hj : j < n then x ⟨j, hj⟩ else 0, fun k hk => ?_⟩
  rw [Finset.sum_range]
  have := congrFun hx ⟨k, hk⟩
  rw [Matrix.toLin'_apply] at this
  simpa [Matrix.mulVec, dotProduct] using this

theorem StrictDom.solvable (h : StrictDom n a) (b : ℕ → ℝ) : ∃ xs, Solves n a b xs := by
  obtain ⟨δ, h0, hδ⟩ := h.margin
  refine solvable_of_inj fun x hx i hi => ?_
  have := dom_bound hδ le_rfl (e := x) (fun k hk => by rw [hx k hk, abs_zero]) i hi
  have h2 : |x i| ≤ 0 := by
    by_contra hc
    push Not at hc
    exact absurd this (not_le.2 (mul_pos h0 hc))
  exact abs_nonpos_iff.1 h2

/-- the contraction argument, for any splitting `M = D + t` with `t` strictly lower triangular -/
theorem StationaryArray.dom (ht : ∀ i j, i < n → t i j ≠ 0 → j < i) (hD : ∀ i, i < n → D i ≠ 0) {q tol : ℝ} (hq0 : 0 ≤ q)
    (hq : q < 1) (hdom : ∀ i, i < n → ∑ j ∈ range n, |t i j| + ∑ j ∈ range n, |restOf a t D i j| ≤ q * |D i|)
    {xs : ℕ → ℝ} (hxs : Solves n a b xs) (hb : ∃ i, i < n ∧ b i ≠ 0) (htol : 0 < tol) (x0 : ℕ → ℝ) :
    ∃ N, ∀ (o : Opts ℝ ℝ) (junk : ℝ) (x' : ℕ → ℝ) (out : Out ℝ), o.tol = tol →
      StationaryArray n a t D Real.sqrt o junk b x0 x' out → DomGuarantee n a b x0 x' q N o out := by
  have hnb : 0 < Real.sqrt (∑ i ∈ range n, b i * b i) := by
    obtain ⟨i, hi, h⟩ := hb
    exact (abs_pos.2 h).trans_le (abs_le_sqrt_sum hi)
  obtain ⟨nb, enb⟩ : ∃ z, z = Real.sqrt (∑ i ∈ range n, b i * b i) := ⟨_, rfl⟩
  obtain ⟨E0, eE0⟩ : ∃ z, z = ∑ i ∈ range n, |x0 i - xs i| := ⟨_, rfl⟩
  obtain ⟨C, eC⟩ : ∃ z, z = ∑ i ∈ range n, ∑ j ∈ range n, |a i j| := ⟨_, rfl⟩
  have hE0 : 0 ≤ E0 := eE0 ▸ sum_nonneg fun i _ => abs_nonneg _
  have hC : 0 ≤ C := eC ▸ sum_nonneg fun i _ => sum_nonneg fun j _ => abs_nonneg _
  obtain ⟨k, hk⟩ := exists_pow_lt_of_lt_one (div_pos (mul_pos htol (enb ▸ hnb)) (by positivity : 0 < C * E0 + 1)) hq
  rw [lt_div_iff₀ (by positivity)] at hk
  refine ⟨k + 1, fun o junk x' out eo => ?_⟩
  rintro ⟨X, hX0, hX, hfail, hcases⟩
  simp only [star_trivial] at hfail hcases
  have hstep : ∀ k, Sweeps n a t D b (X k) (X (k + 1)) := fun k => hX k
  have hrate : ∀ xs, Solves n a b xs → ∀ E, 0 ≤ E → (∀ i, i < n → |x0 i - xs i| ≤ E) → ∀ k, ∀ i, i < n →
      |X k i - xs i| ≤ q ^ k * E := by
    intro xs hxs E hE h0 k
    induction k with
    | zero => intro i hi; rw [hX0 i hi, pow_zero, one_mul]; exact h0 i hi
    | succ k ih =>
      have := (hstep k).contract ht hD hq.le (mul_nonneg (pow_nonneg hq0 k) hE) hdom hxs ih
      intro i hi
      rw [pow_succ, mul_comm (q ^ k), mul_assoc]
      exact this i hi
  have hgood : Real.sqrt (∑ i ∈ range n, (b i - ∑ j ∈ range n, a i j * X k j) * (b i - ∑ j ∈ range n, a i j * X k j)) /
      Real.sqrt (∑ i ∈ range n, b i * b i) ≤ o.tol := by
    rw [div_le_iff₀ hnb, eo, ← enb]
    have h1 := resid_le (a := a) hxs (hrate xs hxs E0 hE0 (fun i hi => by
      rw [eE0]; exact single_le_sum (f := fun i => |x0 i - xs i|) (fun j _ => abs_nonneg _) (mem_range.2 hi)) k)
    rw [← eC] at h1
    have h2 : 0 ≤ q ^ k := pow_nonneg hq0 k
    nlinarith
  have hx' : ∀ i, i < n → x' i = X (min out.iter o.maxiter) i := by
    rcases hcases with ⟨-, -, h, -, -, h'⟩ | ⟨-, h, -, h'⟩
    · intro i hi; rw [min_eq_left h]; exact h' i hi
    · intro i hi; rw [h, min_eq_right (by omega)]; exact h' i hi
  refine ⟨fun hN => ?_, fun xs hxs E hE i hi => ?_, fun hs xs hxs δ hδ i hi => ?_⟩
  · have hit : out.iter ≤ k + 1 := by
      by_contra hc
      exact hfail k (by omega) hgood
    rcases hcases with ⟨h, -⟩ | ⟨-, h, -⟩
    · exact ⟨h, hit⟩
    · omega
  · rw [hx' i hi]
    exact hrate xs hxs E ((abs_nonneg _).trans (hE i hi)) hE _ i hi
  · rcases hcases with ⟨-, h1, h2, h3, h4, h5⟩ | ⟨h, -⟩
    · rw [h3, div_le_iff₀ hnb] at h4
      obtain ⟨m, hm⟩ : ∃ m, out.iter = m + 1 := ⟨out.iter - 1, by omega⟩
      rw [hm, Nat.add_sub_cancel] at h4
      by_cases hδ0 : δ ≤ 0
      · refine (mul_nonpos_of_nonpos_of_nonneg hδ0 (abs_nonneg _)).trans ?_
        rw [eo]
        positivity
      push Not at hδ0
      have hT : 0 ≤ o.tol * Real.sqrt (∑ i ∈ range n, b i * b i) := by rw [eo]; positivity
      have he := dom_bound hδ hT (e := fun j => X m j - xs j) fun i hi => by
        refine le_trans ?_ h4
        refine le_trans (le_of_eq ?_) (abs_le_sqrt_sum (f := fun i => b i - ∑ j ∈ range n, a i j * X m j) hi)
        rw [← hxs i hi, ← sum_sub_distrib, ← abs_neg, ← sum_neg_distrib]
        exact congrArg abs (sum_congr rfl fun j _ => by ring)
      have := (hstep m).contract ht hD hq.le (E := o.tol * Real.sqrt (∑ i ∈ range n, b i * b i) / δ) (by positivity) hdom
        hxs (fun i hi => by rw [le_div_iff₀ hδ0, mul_comm]; exact he i hi) i hi
      rw [h5 i hi, hm]
      calc _ ≤ δ * (q * (o.tol * Real.sqrt (∑ i ∈ range n, b i * b i) / δ)) := mul_le_mul_of_nonneg_left this hδ0.le
        _ = _ := by field_simp
    · rw [hs] at h; cases h

theorem Spd.energy_nonneg (hA : Spd (toMat n a)) (xs x : ℕ → ℝ) : 0 ≤ energyN n a xs x := by
  unfold energyN
  simp only [Finset.sum_range]
  by_cases h : (fun i : Fin n => x i - xs i) = 0
  · refine le_of_eq (sum_eq_zero fun i _ => sum_eq_zero fun j _ => ?_).symm
    have := congrFun h i
    simp only [Pi.zero_apply] at this
    rw [this, zero_mul, zero_mul]
  · refine le_of_lt ((hA.pos _ h).trans_eq ?_)
    simp only [dotProduct, Matrix.mulVec, mul_sum]
    exact sum_congr rfl fun i _ => sum_congr rfl fun j _ => by ring

/-- the theorem of Ostrowski and Reich: SOR with `0 < omega < 2` (Gauss-Seidel for `omega = 1`) on a symmetric positive
definite matrix -/
theorem StationaryArray.spd (hA : Spd (toMat n a)) (ht : ∀ i j, i < n → j < n → t i j = if j < i then a i j else 0)
    {om : ℝ} (h0 : 0 < om) (h2 : om < 2) (hD : ∀ i, i < n → D i = a i i / om) {tol : ℝ}
    (hb : ∃ i, i < n ∧ b i ≠ 0) (htol : 0 < tol) (x0 : ℕ → ℝ) :
    ∃ N, ∀ (o : Opts ℝ ℝ) (junk : ℝ) (x' : ℕ → ℝ) (out : Out ℝ), o.tol = tol →
      StationaryArray n a t D Real.sqrt o junk b x0 x' out → EnergyGuarantee n a b x0 x' N o out := by
  have hnb : 0 < Real.sqrt (∑ i ∈ range n, b i * b i) := by
    obtain ⟨i, hi, h⟩ := hb
    exact (abs_pos.2 h).trans_le (abs_le_sqrt_sum hi)
  have hsym : ∀ i j, i < n → j < n → a i j = a j i := fun i j hi hj =>
    congrFun (congrFun hA.symm ⟨j, hj⟩) ⟨i, hi⟩
  have hpos : ∀ i, i < n → 0 < 2 * D i - a i i := by
    intro i hi
    have h1 : 0 < a i i := hA.diag ⟨i, hi⟩
    rw [hD i hi, show 2 * (a i i / om) - a i i = a i i * ((2 - om) / om) by field_simp]
    exact mul_pos h1 (div_pos (by linarith) h0)
  obtain ⟨p, hp0, hp⟩ : ∃ p, 0 < p ∧ ∀ i, i < n → p ≤ 2 * D i - a i i := by
    by_cases hn : n = 0
    · exact ⟨1, one_pos, fun i hi => by omega⟩
    obtain ⟨m, hm, hmin⟩ := exists_min_image (range n) (fun i => 2 * D i - a i i) ⟨0, mem_range.2 (by omega)⟩
    exact ⟨_, hpos m (mem_range.1 hm), fun i hi => hmin i (mem_range.2 hi)⟩
  obtain ⟨xs, hxs⟩ : ∃ xs, Solves n a b xs := by
    refine solvable_of_inj fun x hx i hi => ?_
    by_contra hne
    have hv : (fun i : Fin n => x i) ≠ 0 := fun h => hne (congrFun h ⟨i, hi⟩)
    have := hA.pos _ hv
    rw [show Matrix.mulVec (toMat n a) (fun i : Fin n => x i) = 0 from funext fun k => by
      have := hx k k.2
      rw [Finset.sum_range] at this
      exact this, dotProduct_zero] at this
    exact lt_irrefl _ this
  obtain ⟨F, eF⟩ : ∃ z, z = ∑ i ∈ range n, ∑ j ∈ range n, ((if i = j then D i else 0) + t i j) ^ 2 := ⟨_, rfl⟩
  have hF : 0 ≤ F := eF ▸ sum_nonneg fun i _ => sum_nonneg fun j _ => sq_nonneg _
  obtain ⟨η, eη⟩ : ∃ z, z = p * (tol * Real.sqrt (∑ i ∈ range n, b i * b i)) ^ 2 / (F + 1) := ⟨_, rfl⟩
  have hη : 0 < η := by rw [eη]; positivity
  obtain ⟨N, hN⟩ := exists_nat_gt (energyN n a xs x0 / η)
  rw [div_lt_iff₀ hη] at hN
  refine ⟨N, fun o junk x' out eo => ?_⟩
  rintro ⟨X, hX0, hX, hfail, hcases⟩
  simp only [star_trivial] at hfail hcases
  have hstep : ∀ k, Sweeps n a t D b (X k) (X (k + 1)) := fun k => hX k
  have hen0 : ∀ xs, energyN n a xs (X 0) = energyN n a xs x0 := by
    intro xs
    unfold energyN
    exact sum_congr rfl fun i hi => sum_congr rfl fun j hj => by rw [hX0 i (mem_range.1 hi), hX0 j (mem_range.1 hj)]
  have hmono : ∀ xs, Solves n a b xs → ∀ k, energyN n a xs (X k) ≤ energyN n a xs x0 := by
    intro xs hxs k
    induction k with
    | zero => exact (hen0 xs).le
    | succ k ih =>
      rw [energy_sweep hsym ht hxs (hstep k)]
      have : 0 ≤ ∑ i ∈ range n, (2 * D i - a i i) * ((X (k + 1) i - X k i) * (X (k + 1) i - X k i)) :=
        sum_nonneg fun i hi => mul_nonneg (hpos i (mem_range.1 hi)).le (mul_self_nonneg _)
      linarith
  have hdrop : ∀ k, ¬ Real.sqrt (∑ i ∈ range n, (b i - ∑ j ∈ range n, a i j * X k j) *
      (b i - ∑ j ∈ range n, a i j * X k j)) / Real.sqrt (∑ i ∈ range n, b i * b i) ≤ o.tol →
      energyN n a xs (X (k + 1)) ≤ energyN n a xs (X k) - η := by
    intro k hk
    rw [div_le_iff₀ hnb, not_le, eo] at hk
    have h1 : (tol * Real.sqrt (∑ i ∈ range n, b i * b i)) ^ 2 ≤ ∑ i ∈ range n, (b i - ∑ j ∈ range n, a i j * X k j) *
        (b i - ∑ j ∈ range n, a i j * X k j) := (Real.le_sqrt (by positivity) (sum_nonneg fun i _ => mul_self_nonneg _)).1 hk.le
    have h2 := h1.trans (sweep_resid (hstep k))
    rw [← eF] at h2
    rw [energy_sweep hsym ht hxs (hstep k)]
    have h3 : p * ∑ j ∈ range n, (X (k + 1) j - X k j) ^ 2 ≤
        ∑ i ∈ range n, (2 * D i - a i i) * ((X (k + 1) i - X k i) * (X (k + 1) i - X k i)) := by
      rw [mul_sum]
      refine sum_le_sum fun i hi => ?_
      rw [pow_two]
      exact mul_le_mul_of_nonneg_right (hp i (mem_range.1 hi)) (mul_self_nonneg _)
    have h4 : 0 ≤ ∑ j ∈ range n, (X (k + 1) j - X k j) ^ 2 := sum_nonneg fun j _ => sq_nonneg _
    have h5 : η ≤ p * ∑ j ∈ range n, (X (k + 1) j - X k j) ^ 2 := by
      rw [eη, div_le_iff₀ (by positivity), mul_assoc]
      refine mul_le_mul_of_nonneg_left ?_ hp0.le
      nlinarith
    linarith
  refine ⟨fun hmax => ?_, fun xs hxs => ?_⟩
  · have hall : ∀ k, k < out.iter → energyN n a xs (X k) ≤ energyN n a xs x0 - k * η := by
      intro k
      induction k with
      | zero => intro _; rw [hen0]; simp
      | succ k ih =>
        intro hk
        have h1 := ih (by omega)
        have h2 := hdrop k (hfail k hk)
        push_cast
        linarith
    have hit : out.iter ≤ N := by
      by_contra hc
      push Not at hc
      have h1 := hall N hc
      have h2 := hA.energy_nonneg xs (X N)
      linarith
    rcases hcases with ⟨h, -⟩ | ⟨-, h, -⟩
    · exact ⟨h, hit⟩
    · omega
  · have hx' : energyN n a xs x' = energyN n a xs (X (min out.iter o.maxiter)) := by
      have hx : ∀ i, i < n → x' i = X (min out.iter o.maxiter) i := by
        rcases hcases with ⟨-, -, h, -, -, h'⟩ | ⟨-, h, -, h'⟩
        · intro i hi; rw [min_eq_left h]; exact h' i hi
        · intro i hi; rw [h, min_eq_right (by omega)]; exact h' i hi
      unfold energyN
      exact sum_congr rfl fun i hi => sum_congr rfl fun j hj => by rw [hx i (mem_range.1 hi), hx j (mem_range.1 hj)]
    rw [hx']
    exact hmono xs hxs _

end Lis
