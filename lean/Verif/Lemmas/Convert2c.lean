import Verif.Lemmas.Convert2b
import Verif.Props.CsrScale

/-! Lemmas on the conversion CSR → DIA. -/

namespace Lis
open Finset
variable {R : Type}

/-- sorting the rows permutes the elements inside each row -/
theorem sortCsr_perm {A : Csr R} (h : A.WF) :
    Ok (sortCsr A) fun B => B.n = A.n ∧ B.np = A.np ∧ B.nnz = A.nnz ∧ B.ptr = A.ptr ∧
      ∃ g : Equiv.Perm ℕ, A.index.RearrangedBy g B.index ∧ A.value.RearrangedBy g B.value ∧
        ∀ i, i < A.n → ∀ k, A.ptr.get i ≤ k → k < A.ptr.get (i + 1) → A.ptr.get i ≤ g k ∧ g k < A.ptr.get (i + 1) := by
  have hps := h.ptr.size
  have his := h.isz
  have hvs := h.vsz
  unfold sortCsr
  rw [Ok_bind]
  refine Ok_loop_le (fun _ (s : Arr ℕ × Arr R) => ∃ g : Equiv.Perm ℕ, A.index.RearrangedBy g s.1 ∧ A.value.RearrangedBy g s.2 ∧
        ∀ i, i < A.n → ∀ k, A.ptr.get i ≤ k → k < A.ptr.get (i + 1) → A.ptr.get i ≤ g k ∧ g k < A.ptr.get (i + 1))
    (Nat.zero_le _) ⟨Equiv.refl _, ⟨rfl, fun _ => rfl⟩, ⟨rfl, fun _ => rfl⟩, fun i _ k h1 h2 => ⟨h1, h2⟩⟩ ?_ ?_
  · rintro i ⟨ix, vl⟩ - hi ⟨f, ⟨h1, h1'⟩, ⟨h2, h2'⟩, h3⟩
    simp only at h1 h1' h2 h2'
    have hm := h.ptr.mono i hi
    have hle := h.ptr.le_nnz (i := i + 1) (by omega)
    simp only [Ok_bind, Ok_rd]
    refine ⟨by omega, by omega, ?_⟩
    refine (lisSortId_spec _ _ (ix, vl) (by omega) (by simp only; omega) (by simp only; omega)).mono ?_
    rintro ⟨ix', vl'⟩ ⟨g, g1, ⟨g2, g2'⟩, ⟨g3, g3'⟩, _⟩
    simp only at g2 g2' g3 g3'
    have hfix : ∀ k, ¬ (A.ptr.get i ≤ k ∧ k < A.ptr.get (i + 1)) → g k = k := fun k hk => g1 k (by omega)
    have hin : ∀ k, (A.ptr.get i ≤ k ∧ k < A.ptr.get (i + 1)) → (A.ptr.get i ≤ g k ∧ g k < A.ptr.get (i + 1)) := by
      intro k hk
      by_contra hc
      have := hfix (g k) hc
      have := g.injective this
      rw [this] at hc; exact hc hk
    refine ⟨g.trans f, ⟨by simp only; omega, fun k => ?_⟩, ⟨by simp only; omega, fun k => ?_⟩, fun r hr k k1 k2 => ?_⟩
    · show ix'.get k = _
      rw [g2', h1']; rfl
    · show vl'.get k = _
      rw [g3', h2']; rfl
    · show A.ptr.get r ≤ f (g k) ∧ f (g k) < A.ptr.get (r + 1)
      by_cases hri : r = i
      · subst hri
        obtain ⟨a, b⟩ := hin k ⟨k1, k2⟩
        exact h3 r hr _ a b
      · have hk : g k = k := hfix k fun hc => by
          rcases Nat.lt_or_ge r i with hl | hl
          · have := h.ptr.mono' (i := r + 1) (j := i) (by omega) (by omega); omega
          · have := h.ptr.mono' (i := i + 1) (j := r) (by omega) (by omega); omega
        rw [hk]; exact h3 r hr k k1 k2
  · rintro ⟨ix, vl⟩ ⟨g, g1, g2, g3⟩
    rw [Ok_pure]
    exact ⟨rfl, rfl, rfl, rfl, g, g1, g2, g3⟩

theorem Csr.NoDup.rearranged {A B : Csr R} (hd : A.NoDup) (hn : B.n = A.n) (hp : B.ptr = A.ptr) {g : Equiv.Perm ℕ}
    (hx : A.index.RearrangedBy g B.index)
    (hg : ∀ i, i < A.n → ∀ k, A.ptr.get i ≤ k → k < A.ptr.get (i + 1) → A.ptr.get i ≤ g k ∧ g k < A.ptr.get (i + 1)) :
    B.NoDup := by
  intro i hi k l k1 k2 l1 l2 he
  rw [hn] at hi
  rw [hp] at k1 k2 l1 l2
  rw [hx.2, hx.2] at he
  obtain ⟨a, b⟩ := hg i hi k k1 k2
  obtain ⟨c, d⟩ := hg i hi l l1 l2
  exact g.injective (hd i hi _ _ a b c d he)

/-! ### distinct offsets -/

/-- number of places in `[1,i)` where the value changes -/
def changes (w : ℕ → ℤ) (i : ℕ) : ℕ := ((Ico 1 i).filter fun k => w (k - 1) ≠ w k).card

theorem changes_succ (w : ℕ → ℤ) {i : ℕ} (hi : 1 ≤ i) :
    changes w (i + 1) = changes w i + if w (i - 1) ≠ w i then 1 else 0 := by
  unfold changes
  rw [← Order.succ_eq_add_one, ← Finset.insert_Ico_right_eq_Ico_succ hi, filter_insert]
  split
  · rw [card_insert_of_notMem (by simp)]
  · rfl

theorem changes_mono (w : ℕ → ℤ) {i j : ℕ} (h : i ≤ j) : changes w i ≤ changes w j :=
  card_le_card (filter_subset_filter _ (Ico_subset_Ico_right h))

theorem diaCount_spec {iw : Arr ℤ} {nnz : ℕ} (h0 : 0 < nnz) (hs : nnz ≤ iw.size) :
    Ok (diaCount iw nnz) fun c => c = 1 + changes iw.get nnz := by
  unfold diaCount
  simp only [Ok_bind, Ok_rd]
  refine ⟨by omega, ?_⟩
  refine Ok_loop_le (fun i (s : ℤ × ℕ) => s.1 = iw.get (i - 1) ∧ s.2 = 1 + changes iw.get i) (show 1 ≤ nnz from h0)
    ⟨rfl, by simp [changes]⟩ ?_ ?_
  · rintro i ⟨k, c⟩ hi1 hi ⟨s1, s2⟩
    simp only at s1 s2
    subst s1 s2
    simp only [Ok_bind, Ok_rd, Ok_ite]
    rw [changes_succ _ hi1]
    refine ⟨by omega, fun hc => ?_, fun hc => ?_⟩
    · rw [Ok_pure, if_pos hc]
      exact ⟨by simp, by omega⟩
    · rw [Ok_pure, if_neg hc]
      rw [not_not] at hc
      exact ⟨by simpa using hc, by omega⟩
  · rintro ⟨k, c⟩ ⟨s1, s2⟩
    rw [Ok_pure]; exact s2

theorem diaIndex_spec {iw index : Arr ℤ} {nnz : ℕ} (h0 : 0 < nnz) (hs : nnz ≤ iw.size)
    (hsort : ∀ a b, a ≤ b → b < nnz → iw.get a ≤ iw.get b) (hx : index.size = 1 + changes iw.get nnz) :
    Ok (diaIndex iw nnz index) fun x => x.size = index.size ∧
      (∀ a b, a < b → b < index.size → x.get a < x.get b) ∧
      (∀ k, k < nnz → ∃ d, d < index.size ∧ x.get d = iw.get k) := by
  unfold diaIndex
  simp only [Ok_bind, Ok_rd, Ok_wr]
  refine ⟨by omega, by omega, ?_⟩
  refine Ok_loop_le (fun i (s : ℤ × ℕ × Arr ℤ) => s.1 = iw.get (i - 1) ∧ s.2.1 = 1 + changes iw.get i ∧ s.2.2.size = index.size ∧
      s.2.2.get (changes iw.get i) = iw.get (i - 1) ∧
      (∀ a b, a < b → b < 1 + changes iw.get i → s.2.2.get a < s.2.2.get b) ∧
      (∀ k, k < i → ∃ d, d < 1 + changes iw.get i ∧ s.2.2.get d = iw.get k)) (show 1 ≤ nnz from h0)
    ⟨rfl, by simp [changes], by simp, ?_, ?_, ?_⟩ ?_ ?_
  · have : changes iw.get 1 = 0 := by simp [changes]
    simp only
    rw [this, Arr.set_get_self]
  · intro a b hab hb
    have : changes iw.get 1 = 0 := by simp [changes]
    omega
  · intro k hk
    refine ⟨0, by omega, ?_⟩
    rw [show k = 0 by omega]
    exact Arr.set_get_self _ _ _
  · rintro i ⟨k, c, x⟩ hi1 hi ⟨s1, s2, s3, s4, s5, s6⟩
    simp only at s1 s2 s3 s4 s5 s6
    subst s1 s2
    have hcl := changes_mono iw.get (show i + 1 ≤ nnz from hi)
    have hcs := changes_succ iw.get hi1
    simp only [Ok_bind, Ok_rd, Ok_wr, Ok_ite]
    refine ⟨by omega, fun hc => ?_, fun hc => ?_⟩
    · rw [if_pos hc] at hcs
      refine ⟨by omega, ?_⟩
      rw [Ok_pure]
      have hlt : iw.get (i - 1) < iw.get i := lt_of_le_of_ne (hsort _ _ (by omega) hi) hc
      refine ⟨by simp, by simp only; omega, by simpa, ?_, fun a b hab hb => ?_, fun k hk => ?_⟩
      · simp only
        rw [hcs, Nat.add_comm, Arr.set_get_self]; simp
      · show (x.set _ _).get a < (x.set _ _).get b
        rw [Arr.set_get_ne (i := 1 + changes iw.get i) (j := a) _ _ (by omega)]
        by_cases hb' : b = 1 + changes iw.get i
        · rw [hb', Arr.set_get_self]
          by_cases ha : a = changes iw.get i
          · rw [ha, s4]; exact hlt
          · have := s5 a (changes iw.get i) (by omega) (by omega)
            rw [s4] at this; exact this.trans hlt
        · rw [Arr.set_get_ne _ _ (by omega)]
          exact s5 a b hab (by omega)
      · by_cases hki : k = i
        · refine ⟨1 + changes iw.get i, by omega, ?_⟩
          show (x.set _ _).get _ = _
          rw [Arr.set_get_self, hki]
        · obtain ⟨d, d1, d2⟩ := s6 k (by omega)
          refine ⟨d, by omega, ?_⟩
          show (x.set _ _).get _ = _
          rw [Arr.set_get_ne _ _ (by omega)]; exact d2
    · rw [if_neg hc] at hcs
      rw [not_not] at hc
      rw [Ok_pure]
      refine ⟨by simpa using hc, by simp only; omega, s3, ?_, fun a b hab hb => s5 a b hab (by omega), fun k hk => ?_⟩
      · simp only
        rw [hcs, Nat.add_zero, s4]; simpa using hc
      · by_cases hki : k = i
        · refine ⟨changes iw.get i, by omega, ?_⟩
          show x.get _ = _
          rw [s4, hki, hc]
        · obtain ⟨d, d1, d2⟩ := s6 k (by omega)
          exact ⟨d, by omega, d2⟩
  · rintro ⟨k, c, x⟩ ⟨s1, s2, s3, s4, s5, s6⟩
    rw [Ok_pure]
    simp only at s3 s5 s6 ⊢
    rw [hx]
    exact ⟨by omega, s5, s6⟩

theorem diaFind_spec {index : Arr ℤ} {jj : ℤ} {k d nnd : ℕ} (hs : index.size = nnd)
    (hinc : ∀ a b, a < b → b < nnd → index.get a < index.get b) (hd : d < nnd) (hj : index.get d = jj) (hk : k ≤ d) :
    Ok (diaFind index jj k) fun r => r = d := by
  unfold diaFind
  refine Ok_while (fun k => k ≤ d) (fun k => d - k) hk ?_
  intro k hk
  simp only [Ok_bind, Ok_rd]
  refine ⟨by omega, ?_⟩
  rw [Ok_pure]
  by_cases h : k = d
  · subst h
    simp [hj]
  · have := hinc k d (by omega) hd
    rw [hj] at this
    rw [if_pos (by simp; omega), Ok_some]
    omega

/-! ### the whole conversion -/

theorem csr2dia_spec' [AddCommMonoid R] (junk : ℕ → ℕ → ℤ) (vjunk : ℕ → R) {A : Csr R} (h : A.WF) (hd : A.NoDup)
    (h0 : 0 < A.nnz) :
    Ok (csr2dia junk vjunk A) fun r => r.1.WF ∧ r.1.Sorted ∧ r.1.NoDup ∧ r.1.n = A.n ∧ r.1.np = A.np ∧
      (∀ i j, i < A.n → r.1.entry i j = A.entry i j) ∧ r.2.WF ∧ r.2.n = A.n ∧
      (∀ a b, a < b → b < r.2.nnd → r.2.index.get a < r.2.index.get b) ∧
      ∀ i j, i < A.n → r.2.entry i j = A.entry i j := by
  unfold csr2dia
  simp only [Ok_bind]
  refine ((sortCsr_spec h).conj (sortCsr_perm h)).mono ?_
  rintro B ⟨⟨hw, hsorted, hn, hnp, hent⟩, -, -, hnnz, hptr, g, g1, g2, g3⟩
  have hdB : B.NoDup := hd.rearranged hn hptr g1 g3
  have hBz : 0 < B.nnz := by omega
  have hps := hw.ptr.size
  have his := hw.isz
  have hvs := hw.vsz
  rw [← hnnz]
  clear g1 g2 g3 g hptr
  -- offsets
  refine Ok_loop_le (fun i (iw : Arr ℤ) => iw.size = B.nnz ∧ ∀ r, r < i → ∀ q, B.ptr.get r ≤ q → q < B.ptr.get (r + 1) →
    iw.get q = (B.index.get q : ℤ) - r) (Nat.zero_le _) ⟨by simp, by simp⟩ ?_ ?_
  · rintro i iw _ hi ⟨w1, w2⟩
    simp only [Ok_bind, Ok_rd]
    refine ⟨by omega, by omega, ?_⟩
    refine Ok_loop_le (fun j (iw : Arr ℤ) => iw.size = B.nnz ∧ (∀ r, r < i → ∀ q, B.ptr.get r ≤ q → q < B.ptr.get (r + 1) →
      iw.get q = (B.index.get q : ℤ) - r) ∧ ∀ q, B.ptr.get i ≤ q → q < j → iw.get q = (B.index.get q : ℤ) - i)
      (hw.ptr.mono i hi) ⟨w1, w2, fun q h1 h2 => absurd h1 (by omega)⟩ ?_ ?_
    · rintro j iw hj1 hj ⟨v1, v2, v3⟩
      have := hw.ptr.lt_nnz hi hj
      simp only [Ok_bind, Ok_rd, Ok_wr]
      refine ⟨by omega, by omega, by simpa, fun r hr q q1 q2 => ?_, fun q q1 q2 => ?_⟩
      · have := hw.ptr.mono' (i := r + 1) (j := i) (by omega) (by omega)
        rw [Arr.set_get_ne _ _ (by omega)]; exact v2 r hr q q1 q2
      · rw [Arr.set_get]
        split
        · next hq => rw [hq]
        · exact v3 q q1 (by omega)
    · rintro iw ⟨v1, v2, v3⟩
      refine ⟨v1, fun r hr q q1 q2 => ?_⟩
      by_cases hri : r = i
      · subst hri; exact v3 q q1 q2
      · exact v2 r (by omega) q q1 q2
  rintro iw ⟨w1, w2⟩
  refine (lisSortI_spec 0 ((B.nnz : ℤ) - 1) iw (by omega) (by omega)).mono ?_
  rintro w ⟨p, p1, ⟨p2, p3⟩, p4⟩
  have hws : ∀ a b, a ≤ b → b < B.nnz → w.get a ≤ w.get b := fun a b hab hb => p4 a b (by omega) hab (by omega)
  have hsurj : ∀ q, q < B.nnz → ∃ k, k < B.nnz ∧ w.get k = iw.get q := by
    intro q hq
    refine ⟨p.symm q, ?_, by rw [p3, Equiv.apply_symm_apply]⟩
    by_contra hc
    have := p1 (p.symm q) (by omega)
    rw [Equiv.apply_symm_apply] at this
    omega
  refine (diaCount_spec hBz (by omega)).mono ?_
  rintro nnd hnnd
  refine (diaIndex_spec (index := .malloc nnd (junk 1)) hBz (by omega) hws (by simpa using hnnd)).mono ?_
  rintro x ⟨x1, x2, x3⟩
  simp only [Arr.malloc_size] at x1 x2 x3
  have hfind : ∀ r, r < B.n → ∀ q, B.ptr.get r ≤ q → q < B.ptr.get (r + 1) → ∃ d, d < nnd ∧ x.get d = (B.index.get q : ℤ) - r := by
    intro r hr q q1 q2
    obtain ⟨k, k1, k2⟩ := hsurj q (hw.ptr.lt_nnz hr q2)
    obtain ⟨d, d1, d2⟩ := x3 k k1
    exact ⟨d, d1, by rw [d2, k2, w2 r hr q q1 q2]⟩
  have hstrict : ∀ r, r < B.n → ∀ k l, B.ptr.get r ≤ k → k < l → l < B.ptr.get (r + 1) → B.index.get k < B.index.get l := by
    intro r hr k l k1 k2 k3
    refine lt_of_le_of_ne (hsorted r hr k l k1 (by omega) k3) fun he => ?_
    have := hdB r hr k l k1 (by omega) (by omega) k3 he
    omega
  have hinj : ∀ a b, a < nnd → b < nnd → x.get a = x.get b → a = b := by
    intro a b ha hb he
    rcases Nat.lt_trichotomy a b with hh | hh | hh
    · have := x2 a b hh hb; omega
    · exact hh
    · have := x2 b a hh ha; omega
  refine Ok_fillConst (by simp) fun v0 hv0 hvz => ?_
  simp only [Arr.malloc_size] at hv0
  -- values
  refine Ok_loop_le (fun i (v : Arr R) => v.size = B.n * nnd ∧ ∀ d r, d < nnd → r < B.n → v.get (d * B.n + r) =
    ∑ q ∈ Ico (B.ptr.get r) (min (B.ptr.get (r + 1)) (B.ptr.get i)), if (B.index.get q : ℤ) - r = x.get d then B.value.get q else 0)
    (Nat.zero_le _) ⟨hv0, fun d r hdd hr => ?_⟩ ?_ ?_
  · rw [hw.ptr.zero, Nat.min_zero]
    rw [hvz _ (by have := flat_lt hdd hr; rw [Nat.mul_comm B.n]; exact this)]
    simp
  · rintro i v _ hi ⟨v1, v2⟩
    simp only [Ok_bind, Ok_rd]
    refine ⟨by omega, by omega, ?_⟩
    refine Ok_loop_le (fun j (s : ℕ × Arr R) => (s.1 = 0 ∧ j = B.ptr.get i ∨ B.ptr.get i < j ∧ s.1 < nnd ∧ x.get s.1 = (B.index.get (j - 1) : ℤ) - i) ∧
      s.2.size = B.n * nnd ∧ ∀ d r, d < nnd → r < B.n → s.2.get (d * B.n + r) =
      ∑ q ∈ Ico (B.ptr.get r) (min (B.ptr.get (r + 1)) j), if (B.index.get q : ℤ) - r = x.get d then B.value.get q else 0)
      (hw.ptr.mono i hi) ⟨Or.inl ⟨rfl, rfl⟩, v1, v2⟩ ?_ ?_
    · rintro j ⟨k, v⟩ hj1 hj ⟨hk, v1, v2⟩
      simp only at hk v1 v2
      have hjn := hw.ptr.lt_nnz hi hj
      obtain ⟨d, d1, d2⟩ := hfind i hi j hj1 hj
      simp only [Ok_bind, Ok_rd]
      refine ⟨by omega, ?_⟩
      have hkd : k ≤ d := by
        rcases hk with ⟨hk, -⟩ | ⟨hj2, hk1, hk2⟩
        · omega
        · have := hstrict i hi (j - 1) j (by omega) (by omega) hj
          by_contra hc
          have := x2 d k (by omega) hk1
          omega
      refine (diaFind_spec x1 x2 d1 d2 hkd).mono ?_
      rintro _ rfl
      rename_i d
      have hpos : d * B.n + i < B.n * nnd := by have := flat_lt d1 hi; rw [Nat.mul_comm B.n]; exact this
      simp only [Ok_wr]
      refine ⟨by omega, by omega, ?_⟩
      rw [Ok_pure]
      refine ⟨Or.inr ⟨by omega, d1, by simpa using d2⟩, by simpa, fun e r he hr => ?_⟩
      show (v.set _ _).get _ = _
      rw [Arr.set_get]
      have hold := v2 e r he hr
      by_cases hri : r = i
      · subst hri
        rw [Nat.min_eq_right (by omega)] at hold
        rw [Nat.min_eq_right (by omega), sum_Ico_succ_top (by omega)]
        by_cases hed : e = d
        · subst hed
          rw [if_pos rfl, if_pos d2.symm]
          rw [sum_eq_zero, zero_add]
          intro q hq
          rw [mem_Ico] at hq
          have := hstrict r hr q j hq.1 hq.2 hj
          rw [if_neg (by omega)]
        · rw [if_neg fun hh => hed (divmod_unique hr hr hh).1, hold, if_neg, add_zero]
          intro hh
          exact hed (hinj e d he d1 (by rw [← hh, d2]))
      · rw [if_neg fun hh => hri (divmod_unique hr hi hh).2, hold]
        congr 1
        rcases Nat.lt_or_ge r i with hl | hl
        · have := hw.ptr.mono' (i := r + 1) (j := i) (by omega) (by omega)
          rw [Nat.min_eq_left (by omega), Nat.min_eq_left (by omega)]
        · have := hw.ptr.mono' (i := i + 1) (j := r) (by omega) (by omega)
          rw [Ico_eq_empty (by omega), Ico_eq_empty (by omega)]
    · rintro ⟨k, v⟩ ⟨-, v1, v2⟩
      rw [Ok_pure]; exact ⟨v1, v2⟩
  · rintro v ⟨v1, v2⟩
    rw [Ok_pure]
    refine ⟨hw, hsorted, hdB, hn, hnp, hent, ⟨x1.ge, by simp only; rw [Nat.mul_comm]; omega⟩, hn, x2, fun i j hi => ?_⟩
    rw [← hent i j hi]
    unfold Dia.entry Csr.entry
    simp only
    have hi' : i < B.n := by omega
    have hval : ∀ d, d < nnd → v.get (d * B.n + i) =
        ∑ q ∈ Ico (B.ptr.get i) (B.ptr.get (i + 1)), if (B.index.get q : ℤ) - i = x.get d then B.value.get q else 0 := by
      intro d hdd
      rw [v2 d i hdd hi', Nat.min_eq_left (hw.ptr.mono' (by omega) le_rfl)]
    by_cases hex : ∃ d, d < nnd ∧ x.get d = (j : ℤ) - i
    · obtain ⟨d, d1, d2⟩ := hex
      rw [sum_eq_single d]
      · rw [if_pos d2, hval d d1]
        refine sum_congr rfl fun q _ => ?_
        rw [d2]
        refine if_congr (by omega) rfl rfl
      · intro e he hne
        rw [mem_range] at he
        exact if_neg fun hh => hne (hinj e d he d1 (by rw [hh, d2]))
      · intro hc; exact absurd (mem_range.2 d1) hc
    · rw [sum_eq_zero, sum_eq_zero]
      · intro q hq
        rw [mem_Ico] at hq
        refine if_neg fun hh => hex ?_
        obtain ⟨d, d1, d2⟩ := hfind i hi' q hq.1 hq.2
        exact ⟨d, d1, by rw [d2, hh]⟩
      · intro d hdd
        rw [mem_range] at hdd
        exact if_neg fun hh => hex ⟨d, hdd, hh⟩

end Lis
