import Verif.Lemmas.GramSchmidt2

namespace Lis
open Finset

/-- the loop over the later columns in `lis_array_mgs` -/
theorem mgsInner_spec {n j : ℕ} {a q r : Arr ℝ} (ha : n * n ≤ a.size) (hq : n * n ≤ q.size) (hr : n * n ≤ r.size)
    (hj : j < n) :
    Ok (loop (j + 1) n (a, r) fun k t => do
        let r ← gsDot n j k t.1 q t.2
        let a ← gsSub n j k (k * n) q r t.1
        pure (a, r)) fun t => t.1.size = a.size ∧ t.2.size = r.size ∧
      (∀ i k, i < n → k < n → t.2.cm n i k = if i = j ∧ j < k then ∑ p ∈ range n, q.cm n p j * a.cm n p k else r.cm n i k) ∧
      (∀ i k, i < n → k < n → t.1.cm n i k = if j < k then a.cm n i k - t.2.cm n j k * q.cm n i j else a.cm n i k) := by
  refine Ok_loop_le (fun m t => t.1.size = a.size ∧ t.2.size = r.size ∧
      (∀ i k, i < n → k < n → t.2.cm n i k =
        if i = j ∧ j < k ∧ k < m then ∑ p ∈ range n, q.cm n p j * a.cm n p k else r.cm n i k) ∧
      (∀ i k, i < n → k < n → t.1.cm n i k =
        if j < k ∧ k < m then a.cm n i k - t.2.cm n j k * q.cm n i j else a.cm n i k)) hj ?_ ?_ ?_
  · refine ⟨rfl, rfl, fun i k _ _ => ?_, fun i k _ _ => ?_⟩
    · rw [if_neg (by omega)]
    · rw [if_neg (by omega)]
  · rintro m ⟨a1, r1⟩ hlo hm ⟨h1, h2, h3, h4⟩
    simp only at h1 h2 h3 h4
    simp only [Ok_bind]
    refine (gsDot_spec (by omega) hq (by omega) hj hm).mono ?_
    rintro r2 rfl
    have hdot : ∑ i ∈ range n, q.cm n i j * a1.cm n i m = ∑ p ∈ range n, q.cm n p j * a.cm n p m :=
      sum_congr rfl fun i hi => by rw [h4 i m (mem_range.1 hi) hm, if_neg (by omega)]
    rw [hdot]
    obtain ⟨r2, hr2⟩ : ∃ r2, r2 = r1.set (j + m * n) (∑ p ∈ range n, q.cm n p j * a.cm n p m) := ⟨_, rfl⟩
    have hcm : ∀ i k, i < n → k < n → r2.cm n i k =
        if i = j ∧ k = m then ∑ p ∈ range n, q.cm n p j * a.cm n p m else r1.cm n i k := by
      intro i k hi hk
      simp only [hr2, Arr.cm, Arr.set_get]
      by_cases h : i = j ∧ k = m
      · rw [if_pos (by rw [h.1, h.2]), if_pos h]
      · rw [if_neg (fun e => h (cm_inj hi (by omega) e)), if_neg h]
    have hsz : r2.size = r1.size := by rw [hr2, Arr.set_size]
    rw [← hr2]
    have hmn : n + m * n ≤ a1.size := by
      have : (m + 1) * n ≤ n * n := Nat.mul_le_mul_right _ hm
      rw [Nat.add_mul] at this; omega
    refine (gsSub_spec hq (by omega) hj hm hmn).mono ?_
    rintro x ⟨s1, s2, s3⟩
    simp only [Ok_pure]
    refine ⟨by omega, by omega, fun i k hi hk => ?_, fun i k hi hk => ?_⟩
    · rw [hcm i k hi hk, h3 i k hi hk]
      by_cases hkm : k = m
      · subst hkm
        by_cases hij : i = j
        · rw [if_pos ⟨hij, rfl⟩, if_pos ⟨hij, by omega, by omega⟩]
        · rw [if_neg (by omega), if_neg (by omega), if_neg (by omega)]
      · rw [if_neg (by omega)]
        by_cases hc : i = j ∧ j < k ∧ k < m
        · rw [if_pos hc, if_pos (by omega)]
        · rw [if_neg hc, if_neg (by omega)]
    · by_cases hkm : k = m
      · subst hkm
        rw [if_pos ⟨by omega, by omega⟩]
        have := s2 i hi
        have h4' := h4 i k hi hk
        rw [if_neg (by omega)] at h4'
        unfold Arr.cm at this h4' ⊢
        rw [this, h4']
      · have e : x.cm n i k = a1.cm n i k := by
          refine s3 _ ?_
          rcases Nat.lt_or_ge k m with hlt | hge
          · left
            have : (k + 1) * n ≤ m * n := Nat.mul_le_mul_right _ hlt
            rw [Nat.add_mul] at this; omega
          · right
            have : (m + 1) * n ≤ k * n := Nat.mul_le_mul_right _ (by omega)
            rw [Nat.add_mul] at this; omega
        rw [e, h4 i k hi hk]
        by_cases hc : j < k ∧ k < m
        · rw [if_pos hc, if_pos (by omega), hcm j k hj hk, if_neg (by omega)]
        · rw [if_neg hc, if_neg (by omega)]
  · rintro ⟨a1, r1⟩ ⟨h1, h2, h3, h4⟩
    simp only at h1 h2 h3 h4
    refine ⟨h1, h2, fun i k hi hk => ?_, fun i k hi hk => ?_⟩
    · rw [h3 i k hi hk]
      by_cases hc : i = j ∧ j < k
      · rw [if_pos hc, if_pos (by omega)]
      · rw [if_neg hc, if_neg (by omega)]
    · rw [h4 i k hi hk]
      by_cases hc : j < k
      · rw [if_pos hc, if_pos (by omega)]
      · rw [if_neg hc, if_neg (by omega)]

/-- what holds after `m` columns -/
structure MgsInv (n m : ℕ) (tol : ℝ) (a0 a q r : ℕ → ℕ → ℝ) : Prop where
  orth : ∀ j l, j < m → l < m → j ≠ l → ∑ i ∈ range n, q i j * q i l = 0
  unit : ∀ j, j < m → tol ≤ r j j → ∑ i ∈ range n, q i j * q i j = 1
  drop : ∀ i j, i < n → j < m → r j j < tol → q i j = 0
  zq : ∀ i j, i < n → j < n → m ≤ j → q i j = 0
  up : ∀ i j, i < n → j < n → (j < i ∨ m ≤ i) → r i j = 0
  diag : ∀ j, j < m → 0 ≤ r j j
  left : ∀ i j, i < n → j < n → a i j = a0 i j - ∑ l ∈ range (min j m), q i l * r l j
  norm : ∀ j, j < m → ∑ i ∈ range n, a i j * a i j = r j j * r j j
  kept : ∀ i j, i < n → j < m → tol ≤ r j j → a i j = q i j * r j j
  perp : ∀ l j, l < m → m ≤ j → j < n → ∑ i ∈ range n, q i l * a i j = 0

theorem mgsStep_spec {n m : ℕ} {tol : ℝ} {a0 : ℕ → ℕ → ℝ} {a q r aj : Arr ℝ} (ht : 0 < tol) (ha : n * n ≤ a.size)
    (hq : n * n ≤ q.size) (hr : n * n ≤ r.size) (haj : n ≤ aj.size) (hm : m < n)
    (h : MgsInv n m tol a0 (a.cm n) (q.cm n) (r.cm n)) :
    Ok (mgsStep Real.sqrt (fun v => decide (v < tol)) n m (a, q, r, aj)) fun s =>
      s.1.size = a.size ∧ s.2.1.size = q.size ∧ s.2.2.1.size = r.size ∧ s.2.2.2.size = aj.size ∧
      MgsInv n (m + 1) tol a0 (s.1.cm n) (s.2.1.cm n) (s.2.2.1.cm n) := by
  unfold mgsStep
  simp only [Ok_bind]
  refine (gsCol_spec ha hm haj).mono ?_
  rintro x ⟨x1, x2⟩
  refine (arrayNrm2_spec (x := x) (by omega)).mono ?_
  rintro nrm hn
  simp only [Ok_wr]
  refine ⟨el_lt hr hm hm, ?_⟩
  have hS : 0 ≤ ∑ i ∈ range n, x.get i * x.get i := sum_nonneg fun i _ => mul_self_nonneg _
  have hn2 : nrm * nrm = ∑ i ∈ range n, a.cm n i m * a.cm n i m := by
    rw [hn, Real.mul_self_sqrt hS]
    exact sum_congr rfl fun i hi => by rw [x2 i (mem_range.1 hi)]
  have hn0 : 0 ≤ nrm := hn ▸ Real.sqrt_nonneg _
  obtain ⟨r2, hr2⟩ : ∃ r2, r2 = r.set (m + m * n) nrm := ⟨_, rfl⟩
  have hcm : ∀ i j, i < n → j < n → r2.cm n i j = if i = m ∧ j = m then nrm else r.cm n i j := by
    intro i j hi hj
    simp only [hr2, Arr.cm, Arr.set_get]
    by_cases h : i = m ∧ j = m
    · rw [if_pos (by rw [h.1, h.2]), if_pos h]
    · rw [if_neg (fun e => h (cm_inj hi (by omega) e)), if_neg h]
  rw [← hr2]
  have r2size : r2.size = r.size := by rw [hr2, Arr.set_size]
  have hqn : Ok (mgsNormalize (fun v => decide (v < tol)) n m x nrm q) fun q' => q'.size = q.size ∧
      (∀ i j, i < n → j < n → j ≠ m → q'.cm n i j = q.cm n i j) ∧
      (nrm < tol → ∀ i, i < n → q'.cm n i m = 0) ∧ (tol ≤ nrm → ∀ i, i < n → q'.cm n i m = a.cm n i m / nrm) := by
    unfold mgsNormalize
    by_cases hs : nrm < tol
    · simp only [hs, decide_true, if_true, Ok_some]
      exact ⟨trivial, fun _ _ _ _ _ => trivial, fun _ i hi => h.zq i m hi hm (le_refl _), fun h' => absurd hs (not_lt.2 h')⟩
    · simp only [hs, decide_false, Bool.false_eq_true, if_false]
      refine (gsNormalize_spec hm (by omega) hq).mono ?_
      rintro q2 ⟨q1, q2k, q2n⟩
      exact ⟨q1, q2n, fun h' => absurd h' (by simp), fun _ i hi => by rw [q2k i hi, x2 i hi]⟩
  refine hqn.mono ?_
  rintro q2 ⟨c1, c2, c3, c4⟩
  refine (mgsInner_spec ha (by omega) (by omega) hm).mono ?_
  rintro ⟨a3, r3⟩ ⟨t1, t2, t3, t4⟩
  simp only at t1 t2 t3 t4
  simp only [Ok_pure]
  have old : ∀ i j, i < n → j < n → i ≠ m → r3.cm n i j = r.cm n i j := fun i j hi hj hne => by
    rw [t3 i j hi hj, if_neg (by omega), hcm i j hi hj, if_neg (by omega)]
  have dg : r3.cm n m m = nrm := by rw [t3 m m hm hm, if_neg (by omega), hcm m m hm hm, if_pos ⟨rfl, rfl⟩]
  have aold : ∀ i j, i < n → j ≤ m → a3.cm n i j = a.cm n i j := fun i j hi hj => by
    rw [t4 i j hi (by omega), if_neg (by omega)]
  have anew : ∀ i j, i < n → m < j → j < n → a3.cm n i j = a.cm n i j - q2.cm n i m * r3.cm n m j := fun i j hi hj hj' => by
    rw [t4 i j hi hj', if_pos hj, mul_comm]
  have rnew : ∀ j, m < j → j < n → r3.cm n m j = ∑ p ∈ range n, q2.cm n p m * a.cm n p j := fun j hj hj' => by
    rw [t3 m j hm hj', if_pos ⟨rfl, hj⟩]
  have perp1 : ∀ l, l < m → ∑ i ∈ range n, q2.cm n i l * q2.cm n i m = 0 := by
    intro l hl
    by_cases hs : nrm < tol
    · exact sum_eq_zero fun i hi => by rw [c3 hs i (mem_range.1 hi), mul_zero]
    · have : ∑ i ∈ range n, q2.cm n i l * q2.cm n i m = (∑ i ∈ range n, q.cm n i l * a.cm n i m) / nrm := by
        rw [sum_div]
        refine sum_congr rfl fun i hi => ?_
        rw [c2 i l (mem_range.1 hi) (by omega) (by omega), c4 (not_lt.1 hs) i (mem_range.1 hi)]
        ring
      rw [this, h.perp l m hl (le_refl _) hm, zero_div]
  have unit1 : tol ≤ nrm → ∑ i ∈ range n, q2.cm n i m * q2.cm n i m = 1 := by
    intro hs
    have hnp : 0 < nrm := lt_of_lt_of_le ht hs
    have : ∑ i ∈ range n, q2.cm n i m * q2.cm n i m = (∑ i ∈ range n, a.cm n i m * a.cm n i m) / (nrm * nrm) := by
      rw [sum_div]
      refine sum_congr rfl fun i hi => ?_
      rw [c4 hs i (mem_range.1 hi)]
      field_simp
    rw [this, ← hn2, div_self (mul_pos hnp hnp).ne']
  refine ⟨t1, c1, by omega, x1, ⟨?_, ?_, ?_, ?_, ?_, ?_, ?_, ?_, ?_, ?_⟩⟩
  · intro j l hj hl hne
    rcases Nat.lt_or_ge j m with hj' | hj'
    · rcases Nat.lt_or_ge l m with hl' | hl'
      · rw [← h.orth j l hj' hl' hne]
        exact sum_congr rfl fun i hi => by
          rw [c2 i j (mem_range.1 hi) (by omega) (by omega), c2 i l (mem_range.1 hi) (by omega) (by omega)]
      · obtain rfl : l = m := by omega
        exact perp1 j hj'
    · obtain rfl : j = m := by omega
      rw [← perp1 l (by omega)]
      exact sum_congr rfl fun i _ => mul_comm _ _
  · intro j hj hs
    rcases Nat.lt_or_ge j m with hj' | hj'
    · rw [old j j (by omega) (by omega) (by omega)] at hs
      rw [← h.unit j hj' hs]
      exact sum_congr rfl fun i hi => by rw [c2 i j (mem_range.1 hi) (by omega) (by omega)]
    · obtain rfl : j = m := by omega
      exact unit1 (dg ▸ hs)
  · intro i j hi hj hs
    rcases Nat.lt_or_ge j m with hj' | hj'
    · rw [old j j (by omega) (by omega) (by omega)] at hs
      rw [c2 i j hi (by omega) (by omega), h.drop i j hi hj' hs]
    · obtain rfl : j = m := by omega
      exact c3 (dg ▸ hs) i hi
  · intro i j hi hj hm'
    rw [c2 i j hi hj (by omega), h.zq i j hi hj (by omega)]
  · intro i j hi hj hor
    rw [t3 i j hi hj, if_neg (by omega), hcm i j hi hj, if_neg (by omega), h.up i j hi hj (by omega)]
  · intro j hj
    rcases Nat.lt_or_ge j m with hj' | hj'
    · rw [old j j (by omega) (by omega) (by omega)]; exact h.diag j hj'
    · obtain rfl : j = m := by omega
      rw [dg]; exact hn0
  · intro i j hi hj
    have hsum : ∀ M, M ≤ m → ∑ l ∈ range M, q2.cm n i l * r3.cm n l j = ∑ l ∈ range M, q.cm n i l * r.cm n l j := by
      intro M hM
      refine sum_congr rfl fun l hl => ?_
      have := mem_range.1 hl
      rw [c2 i l hi (by omega) (by omega), old l j (by omega) hj (by omega)]
    rcases Nat.lt_or_ge m j with hj' | hj'
    · rw [anew i j hi hj' hj, h.left i j hi hj, Nat.min_eq_right (by omega), Nat.min_eq_right (by omega), sum_range_succ,
        hsum m (le_refl _)]
      ring
    · rw [aold i j hi hj', h.left i j hi hj, Nat.min_eq_left hj', Nat.min_eq_left (by omega), hsum j hj']
  · intro j hj
    rw [sum_congr rfl fun i hi => by rw [aold i j (mem_range.1 hi) (by omega)]]
    rcases Nat.lt_or_ge j m with hj' | hj'
    · rw [old j j (by omega) (by omega) (by omega)]; exact h.norm j hj'
    · obtain rfl : j = m := by omega
      rw [dg, hn2]
  · intro i j hi hj hs
    rcases Nat.lt_or_ge j m with hj' | hj'
    · rw [old j j (by omega) (by omega) (by omega)] at hs ⊢
      rw [aold i j hi (by omega), c2 i j hi (by omega) (by omega)]
      exact h.kept i j hi hj' hs
    · obtain rfl : j = m := by omega
      rw [dg] at hs ⊢
      have hnp : 0 < nrm := lt_of_lt_of_le ht hs
      rw [aold i j hi (le_refl _), c4 hs i hi, div_mul_cancel₀ _ hnp.ne']
  · intro l j hl hj hj'
    have hlin : ∑ i ∈ range n, q2.cm n i l * a3.cm n i j =
        ∑ i ∈ range n, q2.cm n i l * a.cm n i j - r3.cm n m j * ∑ i ∈ range n, q2.cm n i l * q2.cm n i m := by
      rw [mul_sum, ← sum_sub_distrib]
      exact sum_congr rfl fun i hi => by rw [anew i j (mem_range.1 hi) hj hj']; ring
    rw [hlin]
    rcases Nat.lt_or_ge l m with hl' | hl'
    · rw [perp1 l hl', mul_zero, sub_zero, ← h.perp l j hl' (by omega) hj']
      exact sum_congr rfl fun i hi => by rw [c2 i l (mem_range.1 hi) (by omega) (by omega)]
    · obtain rfl : l = m := by omega
      rw [rnew j hj hj']
      by_cases hs : nrm < tol
      · have z : ∀ y : ℕ → ℝ, ∑ i ∈ range n, q2.cm n i l * y i = 0 := fun y =>
          sum_eq_zero fun i hi => by rw [c3 hs i (mem_range.1 hi), zero_mul]
        rw [z fun i => q2.cm n i l, z fun i => a.cm n i j]; ring
      · rw [unit1 (not_lt.1 hs)]; ring

theorem arrayMgs_spec {n : ℕ} {tol : ℝ} {a q r : Arr ℝ} {junk : ℕ → ℝ} (ht : 0 < tol) (ha : n * n ≤ a.size)
    (hq : n * n ≤ q.size) (hr : n * n ≤ r.size) :
    Ok (arrayMgs Real.sqrt (fun v => decide (v < tol)) junk n a q r) fun p =>
      p.1.size = a.size ∧ p.2.1.size = q.size ∧ p.2.2.size = r.size ∧
      MgsOut n tol (a.cm n) (p.1.cm n) (p.2.1.cm n) (p.2.2.cm n) := by
  unfold arrayMgs
  simp only [Ok_bind]
  refine (gsZero_spec hq hr).mono ?_
  rintro ⟨q0, r0⟩ ⟨z1, z2, z3⟩
  simp only at z1 z2 z3
  have zz : ∀ i j, i < n → j < n → q0.cm n i j = 0 ∧ r0.cm n i j = 0 := fun i j hi hj =>
    z3 _ (by have := flat_lt hj hi; omega)
  refine Ok_loop_le (fun k (s : Arr ℝ × Arr ℝ × Arr ℝ × Arr ℝ) => s.1.size = a.size ∧ s.2.1.size = q.size ∧
    s.2.2.1.size = r.size ∧ s.2.2.2.size = n ∧ MgsInv n k tol (a.cm n) (s.1.cm n) (s.2.1.cm n) (s.2.2.1.cm n))
    (Nat.zero_le _) ⟨rfl, z1, z2, rfl, ?_⟩ ?_ ?_
  · exact ⟨fun j l h => by omega, fun j h => by omega, fun i j _ h => by omega, fun i j hi hj _ => (zz i j hi hj).1,
      fun i j hi hj _ => (zz i j hi hj).2, fun j h => by omega, fun i j hi hj => by simp, fun j h => by omega,
      fun i j _ h => by omega, fun l j h => by omega⟩
  · rintro k ⟨a1, q1, r1, ak⟩ - hk ⟨s0, s1, s2, s3, s4⟩
    simp only at s0 s1 s2 s3 s4
    refine (mgsStep_spec ht (by omega) (by omega) (by omega) (by omega) hk s4).mono ?_
    rintro ⟨a2, q2, r2, ak2⟩ ⟨t0, t1, t2, t3, t4⟩
    simp only at t0 t1 t2 t3 t4
    exact ⟨t0.trans s0, t1.trans s1, t2.trans s2, t3.trans s3, t4⟩
  · rintro ⟨a1, q1, r1, ak⟩ ⟨s0, s1, s2, s3, s4⟩
    simp only at s0 s1 s2 s3 s4
    simp only [Ok_pure]
    refine ⟨s0, s1, s2, ⟨s4.orth, s4.unit, s4.drop, fun i j hi hj h => s4.up i j hi hj (Or.inl h), s4.diag, ?_, s4.norm,
      s4.kept⟩⟩
    intro i j hi hj
    rw [s4.left i j hi hj, Nat.min_eq_left (by omega)]

theorem MgsOut.span {n : ℕ} {tol : ℝ} {a0 a q r : ℕ → ℕ → ℝ} (h : MgsOut n tol a0 a q r) (ht : 0 < tol) :
    ∀ l, l < n → ∃ y : ℕ → ℝ, (∀ p, l < p → y p = 0) ∧ ∀ i, i < n → q i l = ∑ p ∈ range n, a0 i p * y p := by
  intro l
  induction l using Nat.strong_induction_on with
  | _ l ih =>
    intro hl
    by_cases hs : r l l < tol
    · exact ⟨fun _ => 0, fun _ _ => rfl, fun i hi => by simp [h.drop i l hi hl hs]⟩
    have hs := not_lt.1 hs
    have hr : r l l ≠ 0 := (lt_of_lt_of_le ht hs).ne'
    choose! Y hY0 hY using fun p (hp : p < l) => ih p hp (by omega)
    refine ⟨fun p => ((if p = l then 1 else 0) - ∑ s ∈ range l, Y s p * r s l) / r l l, fun p hp => ?_, fun i hi => ?_⟩
    · simp only
      rw [if_neg (by omega), sum_eq_zero, sub_zero, zero_div]
      intro s hs
      have := mem_range.1 hs
      rw [hY0 s this p (by omega), zero_mul]
    · have e1 : a0 i l = ∑ s ∈ range l, q i s * r s l + q i l * r l l := by
        rw [← h.kept i l hi hl hs, h.left i l hi hl]; ring
      have e2 : ∑ p ∈ range n, a0 i p * (((if p = l then 1 else 0) - ∑ s ∈ range l, Y s p * r s l) / r l l) =
          (∑ p ∈ range n, a0 i p * (if p = l then 1 else 0) - ∑ s ∈ range l, (∑ p ∈ range n, a0 i p * Y s p) * r s l) / r l l := by
        simp only [sum_mul]
        rw [sum_comm, ← sum_sub_distrib, sum_div]
        refine sum_congr rfl fun p _ => ?_
        rw [mul_div_assoc', mul_sub, mul_sum]
        congr 2
        exact sum_congr rfl fun s _ => by ring
      have e3 : ∑ p ∈ range n, a0 i p * (if p = l then 1 else 0) = a0 i l := by
        rw [sum_eq_single l (fun p _ hp => by rw [if_neg hp, mul_zero])
          (fun hh => absurd (mem_range.2 (by omega)) hh), if_pos rfl, mul_one]
      rw [e2, e3, e1, sum_congr rfl fun s hs => by rw [hY s (mem_range.1 hs) i hi]]
      field_simp
      ring

/-- no column is dropped if the smallest singular value is at least `tol` -/
theorem MgsOut.full {n : ℕ} {tol : ℝ} {a0 a q r : ℕ → ℕ → ℝ} (h : MgsOut n tol a0 a q r) (ht : 0 < tol)
    (hA : LowerBound n tol a0) (m : ℕ) (hm : m < n) : tol ≤ r m m := by
  choose! Y hY0 hY using h.span ht
  have hw : ∀ i, i < n → ∑ p ∈ range n, a0 i p * ((if p = m then 1 else 0) - ∑ s ∈ range m, Y s p * r s m) = a i m := by
    intro i hi
    have e2 : ∑ p ∈ range n, a0 i p * ((if p = m then 1 else 0) - ∑ s ∈ range m, Y s p * r s m) =
          ∑ p ∈ range n, a0 i p * (if p = m then 1 else 0) - ∑ s ∈ range m, (∑ p ∈ range n, a0 i p * Y s p) * r s m := by
      simp only [sum_mul]
      rw [sum_comm, ← sum_sub_distrib]
      refine sum_congr rfl fun p _ => ?_
      rw [mul_sub, mul_sum]
      congr 1
      exact sum_congr rfl fun s _ => by ring
    have e3 : ∑ p ∈ range n, a0 i p * (if p = m then 1 else 0) = a0 i m := by
      rw [sum_eq_single m (fun p _ hp => by rw [if_neg hp, mul_zero])
        (fun hh => absurd (mem_range.2 (by omega)) hh), if_pos rfl, mul_one]
    rw [e2, e3, h.left i m hi hm]
    congr 1
    exact sum_congr rfl fun s hs => by rw [hY s (by have := mem_range.1 hs; omega) i hi]
  have := hA fun p => (if p = m then 1 else 0) - ∑ s ∈ range m, Y s p * r s m
  have e : ∑ i ∈ range n, (∑ j ∈ range n, a0 i j * ((if j = m then 1 else 0) - ∑ s ∈ range m, Y s j * r s m)) ^ 2 =
      r m m * r m m := by
    rw [← h.norm m hm]
    exact sum_congr rfl fun i hi => by rw [hw i (mem_range.1 hi), pow_two]
  simp only [e] at this
  have hx : 1 ≤ ∑ j ∈ range n, ((if j = m then (1:ℝ) else 0) - ∑ s ∈ range m, Y s j * r s m) ^ 2 := by
    refine le_trans ?_ (single_le_sum (f := fun j => ((if j = m then (1:ℝ) else 0) - ∑ s ∈ range m, Y s j * r s m) ^ 2)
      (fun j _ => sq_nonneg _) (mem_range.2 (show m < n by omega)))
    simp only [if_true]
    rw [sum_eq_zero fun s hs => by
      rw [hY0 s (by have := mem_range.1 hs; omega) m (mem_range.1 hs), zero_mul]]
    norm_num
  have h1 : tol ^ 2 ≤ r m m * r m m := le_trans (le_mul_of_one_le_right (sq_nonneg _) hx) this
  have := h.diag m hm
  nlinarith

end Lis
