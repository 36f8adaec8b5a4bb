import Verif.Lemmas.GramSchmidt
import Mathlib.Algebra.BigOperators.Field
import Mathlib.Tactic.FieldSimp

namespace Lis
open Finset

theorem gs_orth {n k : ℕ} {q : ℕ → ℕ → ℝ} {x c w : ℕ → ℝ}
    (ho : ∀ j l, j < k → l < k → ∑ i ∈ range n, q i j * q i l = if j = l then 1 else 0)
    (hc : ∀ j, j < k → c j = ∑ i ∈ range n, q i j * x i)
    (hw : ∀ i, i < n → w i = x i - ∑ j ∈ range k, q i j * c j) (l : ℕ) (hl : l < k) :
    ∑ i ∈ range n, q i l * w i = 0 := by
  have e : ∑ i ∈ range n, q i l * w i = ∑ i ∈ range n, q i l * x i - ∑ j ∈ range k, c j * ∑ i ∈ range n, q i l * q i j := by
    simp only [mul_sum]
    rw [sum_comm, ← sum_sub_distrib]
    refine sum_congr rfl fun i hi => ?_
    rw [hw i (mem_range.1 hi), mul_sub, mul_sum]
    congr 1
    exact sum_congr rfl fun j _ => by ring
  rw [e, ← hc l hl, sum_eq_single l]
  · rw [ho l l hl hl, if_pos rfl]; ring
  · intro j hj hne
    rw [ho l j hl (mem_range.1 hj), if_neg (Ne.symm hne)]; ring
  · intro h; exact absurd (mem_range.2 hl) h

/-- what holds before column `k` is handled -/
structure CgsInv (n k : ℕ) (tol : ℝ) (a q r : ℕ → ℕ → ℝ) : Prop where
  cols : QrCols n k a q r
  zr : ∀ i j, i < n → j < n → k ≤ j → r i j = 0
  big : ∀ j, j < k → tol ≤ r j j

theorem QrCols.congr {n m : ℕ} {a q q' r r' : ℕ → ℕ → ℝ} (h : QrCols n m a q r) (hm : m ≤ n)
    (hq : ∀ i j, i < n → j < n → q' i j = q i j) (hr : ∀ i j, i < n → j < n → r' i j = r i j) : QrCols n m a q' r' where
  orth j l hj hl := by
    rw [← h.orth j l hj hl]
    exact sum_congr rfl fun i hi => by rw [hq i j (mem_range.1 hi) (by omega), hq i l (mem_range.1 hi) (by omega)]
  zq i j hi hj hm := by rw [hq i j hi hj, h.zq i j hi hj hm]
  up i j hi hj hm := by rw [hr i j hi hj, h.up i j hi hj hm]
  diag j hj := by rw [hr j j (by omega) (by omega)]; exact h.diag j hj
  prod i j hi hj := by
    rw [← h.prod i j hi hj]
    exact sum_congr rfl fun l hl => by rw [hq i l hi (mem_range.1 hl), hr l j (mem_range.1 hl) (by omega)]
  zr i j hi hj hm := by rw [hr i j hi hj, h.zr i j hi hj hm]

theorem cgsStep_spec {n k : ℕ} {tol : ℝ} {a q r ak : Arr ℝ} (ht : 0 < tol) (ha : n * n ≤ a.size) (hq : n * n ≤ q.size)
    (hr : n * n ≤ r.size) (hak : n ≤ ak.size) (hk : k < n) (h : CgsInv n k tol (a.cm n) (q.cm n) (r.cm n)) :
    Ok (cgsStep Real.sqrt (fun v => decide (v < tol)) n a k (q, r, ak)) fun p =>
      p.2.1.size = q.size ∧ p.2.2.1.size = r.size ∧ p.2.2.2.size = ak.size ∧
      if p.1 then QrCols n k (a.cm n) (p.2.1.cm n) (p.2.2.1.cm n) ∧ (∀ j, j < k → tol ≤ p.2.2.1.cm n j j) ∧
          p.2.2.1.cm n k k < tol ∧ QrStop n k (a.cm n) (p.2.1.cm n) (p.2.2.1.cm n)
      else CgsInv n (k + 1) tol (a.cm n) (p.2.1.cm n) (p.2.2.1.cm n) := by
  unfold cgsStep
  simp only [Ok_bind]
  refine (gsCol_spec ha hk hak).mono ?_
  rintro x ⟨x1, x2⟩
  refine (cgsInner_spec ha hq hr hk (by omega) x2).mono ?_
  rintro ⟨r1, w⟩ ⟨w1, w2, w3, w4, w5⟩
  simp only at w1 w2 w3 w4 w5
  refine (arrayNrm2_spec (x := w) (by omega)).mono ?_
  rintro nrm hn
  simp only [Ok_wr]
  refine ⟨el_lt (by omega) hk hk, ?_⟩
  have hS : 0 ≤ ∑ i ∈ range n, w.get i * w.get i := sum_nonneg fun i _ => mul_self_nonneg _
  have hn2 : nrm * nrm = ∑ i ∈ range n, w.get i * w.get i := by rw [hn, Real.mul_self_sqrt hS]
  have hn0 : 0 ≤ nrm := hn ▸ Real.sqrt_nonneg _
  obtain ⟨r2, hr2⟩ : ∃ r2, r2 = r1.set (k + k * n) nrm := ⟨_, rfl⟩
  have hcm : ∀ i j, i < n → j < n → r2.cm n i j = if i = k ∧ j = k then nrm else r1.cm n i j := by
    intro i j hi hj
    simp only [hr2, Arr.cm, Arr.set_get]
    by_cases h : i = k ∧ j = k
    · rw [if_pos (by rw [h.1, h.2]), if_pos h]
    · rw [if_neg (fun e => h (cm_inj hi (by omega) e)), if_neg h]
  rw [← hr2]
  have r2size : r2.size = r1.size := by rw [hr2, Arr.set_size]
  have hdiag : r2.cm n k k = nrm := by rw [hcm k k hk hk, if_pos ⟨rfl, rfl⟩]
  have hnek : ∀ i j, i < n → j < n → j ≠ k → r2.cm n i j = r.cm n i j := by
    intro i j hi hj hne
    rw [hcm i j hi hj, if_neg (by omega), w4 i j hi hj (Or.inl hne)]
  have hbelow : ∀ i, i < n → k < i → r2.cm n i k = 0 := by
    intro i hi hlt
    rw [hcm i k hi hk, if_neg (by omega), w4 i k hi hk (Or.inr (by omega)), h.zr i k hi hk (le_refl _)]
  have habove : ∀ j, j < k → r2.cm n j k = r1.cm n j k := by
    intro j hj
    rw [hcm j k (by omega) hk, if_neg (by omega)]
  have worth := gs_orth (x := fun i => a.cm n i k) h.cols.orth w3 w5
  have wdec : ∀ i, i < n → a.cm n i k = ∑ l ∈ range k, q.cm n i l * r2.cm n l k + w.get i := by
    intro i hi
    rw [w5 i hi, sum_congr rfl fun l hl => by rw [habove l (mem_range.1 hl)]]
    ring
  have hup : ∀ i j, i < n → j < n → j < i → r2.cm n i j = 0 := by
    intro i j hi hj hlt
    rcases eq_or_ne j k with rfl | hne
    · exact hbelow i hi hlt
    · rw [hnek i j hi hj hne, h.cols.up i j hi hj hlt]
  have hzr : ∀ i j, i < n → j < n → k < j → r2.cm n i j = 0 := by
    intro i j hi hj hlt
    rw [hnek i j hi hj (by omega), h.zr i j hi hj (by omega)]
  by_cases hs : nrm < tol
  · simp only [hs, decide_true, if_true, Ok_pure]
    refine ⟨trivial, by omega, by omega, ⟨h.cols.orth, h.cols.zq, hup, ?_, ?_, hzr⟩, ?_, by rw [hdiag]; exact hs, ⟨⟨w.get, wdec, worth, ?_⟩, by rw [hdiag]; exact hn0⟩⟩
    · intro j hj; rw [hnek j j (by omega) (by omega) (by omega)]; exact h.cols.diag j hj
    · intro i j hi hj
      rw [← h.cols.prod i j hi hj]
      exact sum_congr rfl fun l hl => by rw [hnek l j (mem_range.1 hl) (by omega) (by omega)]
    · intro j hj; rw [hnek j j (by omega) (by omega) (by omega)]; exact h.big j hj
    · rw [hdiag, hn2]
  · simp only [hs, decide_false, Bool.false_eq_true, if_false]
    simp only [Ok_bind]
    refine (gsNormalize_spec hk (by omega) hq).mono ?_
    rintro q2 ⟨q1, q2k, q2n⟩
    simp only [Ok_pure, Bool.false_eq_true, if_false]
    have hnp : 0 < nrm := lt_of_lt_of_le ht (not_lt.1 hs)
    refine ⟨q1, by omega, by omega, ⟨?_, ?_, hup, ?_, ?_, ?_⟩, ?_, ?_⟩
    · have key : ∀ l, l < k → ∑ i ∈ range n, q2.cm n i l * q2.cm n i k = 0 := by
        intro l hl
        have : ∑ i ∈ range n, q2.cm n i l * q2.cm n i k = (∑ i ∈ range n, q.cm n i l * w.get i) / nrm := by
          rw [sum_div]
          refine sum_congr rfl fun i hi => ?_
          rw [q2n i l (mem_range.1 hi) (by omega) (by omega), q2k i (mem_range.1 hi)]
          ring
        rw [this, worth l hl, zero_div]
      intro j l hj hl
      rcases Nat.lt_or_ge j k with hj' | hj'
      · rcases Nat.lt_or_ge l k with hl' | hl'
        · rw [← h.cols.orth j l hj' hl']
          exact sum_congr rfl fun i hi => by
            rw [q2n i j (mem_range.1 hi) (by omega) (by omega), q2n i l (mem_range.1 hi) (by omega) (by omega)]
        · obtain rfl : l = k := by omega
          rw [if_neg (by omega)]; exact key j hj'
      · obtain rfl : j = k := by omega
        rcases Nat.lt_or_ge l j with hl' | hl'
        · rw [if_neg (by omega), ← key l hl']
          exact sum_congr rfl fun i _ => mul_comm _ _
        · obtain rfl : l = j := by omega
          rw [if_pos rfl]
          have : ∑ i ∈ range n, q2.cm n i l * q2.cm n i l = (∑ i ∈ range n, w.get i * w.get i) / (nrm * nrm) := by
            rw [sum_div]
            refine sum_congr rfl fun i hi => ?_
            rw [q2k i (mem_range.1 hi)]
            field_simp
          rw [this, ← hn2, div_self (mul_pos hnp hnp).ne']
    · intro i j hi hj hm
      rw [q2n i j hi hj (by omega), h.cols.zq i j hi hj (by omega)]
    · intro j hj
      rcases Nat.lt_or_ge j k with hj' | hj'
      · rw [hnek j j (by omega) (by omega) (by omega)]; exact h.cols.diag j hj'
      · obtain rfl : j = k := by omega
        rw [hdiag]; exact hnp
    · intro i j hi hj
      rcases Nat.lt_or_ge j k with hj' | hj'
      · rw [← h.cols.prod i j hi hj']
        refine sum_congr rfl fun l hl => ?_
        have hl := mem_range.1 hl
        rw [hnek l j hl (by omega) (by omega)]
        rcases eq_or_ne l k with rfl | hne
        · rw [h.cols.up l j hl (by omega) (by omega)]; ring
        · rw [q2n i l hi hl hne]
      · obtain rfl : j = k := by omega
        have : ∑ l ∈ range n, q2.cm n i l * r2.cm n l j = ∑ l ∈ range (j + 1), q2.cm n i l * r2.cm n l j := by
          symm
          refine sum_subset (range_subset_range.2 hk) fun l hl hn => ?_
          rw [hbelow l (mem_range.1 hl) (by have := mt mem_range.2 hn; omega), mul_zero]
        rw [this, sum_range_succ, q2k i hi, hdiag, wdec i hi, div_mul_cancel₀ _ hnp.ne']
        congr 1
        refine sum_congr rfl fun l hl => ?_
        have := mem_range.1 hl
        rw [q2n i l hi (by omega) (by omega)]
    · intro i j hi hj hm; exact hzr i j hi hj (by omega)
    · intro i j hi hj hm; exact hzr i j hi hj (by omega)
    · intro j hj
      rcases Nat.lt_or_ge j k with hj' | hj'
      · rw [hnek j j (by omega) (by omega) (by omega)]; exact h.big j hj'
      · obtain rfl : j = k := by omega
        rw [hdiag]; exact not_lt.1 hs

theorem arrayCgs_spec {n : ℕ} {tol : ℝ} {a q r : Arr ℝ} {junk : ℕ → ℝ} (ht : 0 < tol) (ha : n * n ≤ a.size)
    (hq : n * n ≤ q.size) (hr : n * n ≤ r.size) :
    Ok (arrayCgs Real.sqrt (fun v => decide (v < tol)) junk n a q r) fun p => p.1.size = q.size ∧ p.2.size = r.size ∧
      ∃ m, m ≤ n ∧ QrCols n m (a.cm n) (p.1.cm n) (p.2.cm n) ∧ (∀ j, j < m → tol ≤ p.2.cm n j j) ∧
        (m < n → p.2.cm n m m < tol ∧ QrStop n m (a.cm n) (p.1.cm n) (p.2.cm n)) := by
  unfold arrayCgs
  simp only [Ok_bind]
  refine (gsZero_spec hq hr).mono ?_
  rintro ⟨q0, r0⟩ ⟨z1, z2, z3⟩
  simp only at z1 z2 z3
  have zz : ∀ i j, i < n → j < n → q0.cm n i j = 0 ∧ r0.cm n i j = 0 := fun i j hi hj =>
    z3 _ (by have := flat_lt hj hi; omega)
  refine Ok_loopB (fun k (s : Arr ℝ × Arr ℝ × Arr ℝ) => k ≤ n ∧ s.1.size = q.size ∧ s.2.1.size = r.size ∧ s.2.2.size = n ∧
    CgsInv n k tol (a.cm n) (s.1.cm n) (s.2.1.cm n)) ⟨Nat.zero_le _, z1, z2, rfl, ?_⟩ ?_ ?_
  · refine ⟨⟨fun j l h => by omega, fun i j hi hj _ => (zz i j hi hj).1, fun i j hi hj _ => (zz i j hi hj).2,
      fun j h => by omega, fun i j _ h => by omega, fun i j hi hj _ => (zz i j hi hj).2⟩,
      fun i j hi hj _ => (zz i j hi hj).2, fun j h => by omega⟩
  · rintro k ⟨q1, r1, ak⟩ - hk ⟨-, s1, s2, s3, s4⟩
    simp only at s1 s2 s3 s4
    refine (cgsStep_spec ht ha (by omega) (by omega) (by omega) hk s4).mono ?_
    rintro ⟨b, q2, r2, ak2⟩ ⟨t1, t2, t3, t4⟩
    simp only at t1 t2 t3 t4
    cases b
    · simp only [Bool.false_eq_true, if_false] at t4 ⊢
      exact ⟨hk, by omega, by omega, by omega, t4⟩
    · simp only [if_true] at t4 ⊢
      simp only [Ok_pure]
      exact ⟨by omega, by omega, k, by omega, t4.1, t4.2.1, fun _ => ⟨t4.2.2.1, t4.2.2.2⟩⟩
  · rintro ⟨q1, r1, ak⟩ ⟨-, s1, s2, s3, s4⟩
    simp only at s1 s2 s3 s4
    rw [Nat.zero_max] at s4
    simp only [Ok_pure]
    exact ⟨by omega, by omega, n, le_refl _, s4.cols, s4.big, fun h => by omega⟩

/-- the columns of `q` are combinations of the earlier columns of `a` -/
theorem QrCols.span {n m : ℕ} {a q r : ℕ → ℕ → ℝ} (h : QrCols n m a q r) (hm : m ≤ n) :
    ∀ l, l < m → ∃ y : ℕ → ℝ, (∀ p, l < p → y p = 0) ∧ ∀ i, i < n → q i l = ∑ p ∈ range n, a i p * y p := by
  intro l
  induction l using Nat.strong_induction_on with
  | _ l ih =>
    intro hl
    have hr := (h.diag l hl).ne'
    choose! Y hY0 hY using fun p (hp : p < l) => ih p hp (by omega)
    refine ⟨fun p => ((if p = l then 1 else 0) - ∑ s ∈ range l, Y s p * r s l) / r l l, fun p hp => ?_, fun i hi => ?_⟩
    · simp only
      rw [if_neg (by omega), sum_eq_zero, sub_zero, zero_div]
      intro s hs
      have := mem_range.1 hs
      rw [hY0 s this p (by omega), zero_mul]
    · have e1 : a i l = ∑ s ∈ range l, q i s * r s l + q i l * r l l := by
        rw [← h.prod i l hi hl, ← sum_range_succ]
        symm
        refine sum_subset (range_subset_range.2 (by omega)) fun s hs hn => ?_
        rw [h.up s l (mem_range.1 hs) (by omega) (by have := mt mem_range.2 hn; omega), mul_zero]
      have e2 : ∑ p ∈ range n, a i p * (((if p = l then 1 else 0) - ∑ s ∈ range l, Y s p * r s l) / r l l) =
          (∑ p ∈ range n, a i p * (if p = l then 1 else 0) - ∑ s ∈ range l, (∑ p ∈ range n, a i p * Y s p) * r s l) / r l l := by
        simp only [sum_mul]
        rw [sum_comm, ← sum_sub_distrib, sum_div]
        refine sum_congr rfl fun p _ => ?_
        rw [mul_div_assoc', mul_sub, mul_sum]
        congr 2
        exact sum_congr rfl fun s _ => by ring
      have e3 : ∑ p ∈ range n, a i p * (if p = l then 1 else 0) = a i l := by
        rw [sum_eq_single l (fun p _ hp => by rw [if_neg hp, mul_zero])
          (fun hh => absurd (mem_range.2 (by omega)) hh), if_pos rfl, mul_one]
      rw [e2, e3, e1, sum_congr rfl fun s hs => by rw [hY s (mem_range.1 hs) i hi]]
      field_simp
      ring

/-- a matrix whose smallest singular value is at least `tol` does not stop the factorization -/
theorem QrCols.full {n m : ℕ} {tol : ℝ} {a q r : ℕ → ℕ → ℝ} (h : QrCols n m a q r) (hm : m ≤ n) (ht : 0 < tol)
    (hn : m < n → r m m < tol ∧ QrStop n m a q r) (hA : LowerBound n tol a) : m = n := by
  by_contra hne
  obtain ⟨r1, ⟨w, w1, -, w3⟩, r0⟩ := hn (by omega)
  choose! Y hY0 hY using h.span hm
  have hw : ∀ i, i < n → ∑ p ∈ range n, a i p * ((if p = m then 1 else 0) - ∑ s ∈ range m, Y s p * r s m) = w i := by
    intro i hi
    have e2 : ∑ p ∈ range n, a i p * ((if p = m then 1 else 0) - ∑ s ∈ range m, Y s p * r s m) =
          ∑ p ∈ range n, a i p * (if p = m then 1 else 0) - ∑ s ∈ range m, (∑ p ∈ range n, a i p * Y s p) * r s m := by
      simp only [sum_mul]
      rw [sum_comm, ← sum_sub_distrib]
      refine sum_congr rfl fun p _ => ?_
      rw [mul_sub, mul_sum]
      congr 1
      exact sum_congr rfl fun s _ => by ring
    have e3 : ∑ p ∈ range n, a i p * (if p = m then 1 else 0) = a i m := by
      rw [sum_eq_single m (fun p _ hp => by rw [if_neg hp, mul_zero])
        (fun hh => absurd (mem_range.2 (by omega)) hh), if_pos rfl, mul_one]
    rw [e2, e3, w1 i hi, sum_congr rfl fun s hs => by rw [hY s (mem_range.1 hs) i hi]]
    ring
  have := hA fun p => (if p = m then 1 else 0) - ∑ s ∈ range m, Y s p * r s m
  have e : ∑ i ∈ range n, (∑ j ∈ range n, a i j * ((if j = m then 1 else 0) - ∑ s ∈ range m, Y s j * r s m)) ^ 2 =
      r m m * r m m := by
    rw [← w3]
    exact sum_congr rfl fun i hi => by rw [hw i (mem_range.1 hi), pow_two]
  simp only [e] at this
  have hx : 1 ≤ ∑ j ∈ range n, ((if j = m then (1:ℝ) else 0) - ∑ s ∈ range m, Y s j * r s m) ^ 2 := by
    refine le_trans ?_ (single_le_sum (f := fun j => ((if j = m then (1:ℝ) else 0) - ∑ s ∈ range m, Y s j * r s m) ^ 2)
      (fun j _ => sq_nonneg _) (mem_range.2 (show m < n by omega)))
    simp only [if_true]
    rw [sum_eq_zero fun s hs => by rw [hY0 s (mem_range.1 hs) m (mem_range.1 hs), zero_mul]]
    norm_num
  have h1 : tol ^ 2 ≤ r m m * r m m := le_trans (le_mul_of_one_le_right (sq_nonneg _) hx) this
  nlinarith

end Lis
