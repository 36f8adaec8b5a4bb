import Verif.Lemmas.ConvertVbr4
import Verif.Lemmas.Convert2c

/-! Lemmas on `lis_matrix_get_vbr_rowcol`. -/

namespace Lis
open Finset
variable {R : Type}

/-- marks after the elements before `k`: boundary `n` is marked iff one of them is in the last column -/
def MarkedTo (A : Csr R) (k : ℕ) (iw : Arr ℕ) : Prop :=
  iw.size = A.n + 1 ∧ (iw.get A.n ≠ 0 ↔ ∃ q, q < k ∧ A.index.get q + 1 = A.n)

theorem MarkedTo.set {A : Csr R} {k : ℕ} {iw : Arr ℕ} (h : MarkedTo A k iw) (c : ℕ) (hc : c < A.n) : MarkedTo A k (iw.set c 1) := by
  refine ⟨by simpa using h.1, ?_⟩
  rw [Arr.set_get_ne _ _ (by omega)]; exact h.2

theorem MarkedTo.setSucc {A : Csr R} {k : ℕ} {iw : Arr ℕ} (h : MarkedTo A k iw) : MarkedTo A (k + 1) (iw.set (A.index.get k + 1) 1) := by
  refine ⟨by simpa using h.1, ?_⟩
  rw [Arr.set_get]
  by_cases he : A.n = A.index.get k + 1
  · rw [if_pos he]
    exact ⟨fun _ => ⟨k, by omega, he.symm⟩, fun _ => by simp⟩
  · rw [if_neg he, h.2]
    constructor
    · rintro ⟨q, h1, h2⟩; exact ⟨q, by omega, h2⟩
    · rintro ⟨q, h1, h2⟩
      refine ⟨q, ?_, h2⟩
      have : q ≠ k := fun hh => he (by rw [← h2, hh])
      omega

theorem MarkedTo.skip {A : Csr R} {k : ℕ} {iw : Arr ℕ} (h : MarkedTo A k iw) (he : A.index.get k + 1 ≠ A.n) : MarkedTo A (k + 1) iw := by
  refine ⟨h.1, ?_⟩
  rw [h.2]
  constructor
  · rintro ⟨q, h1, h2⟩; exact ⟨q, by omega, h2⟩
  · rintro ⟨q, h1, h2⟩
    refine ⟨q, ?_, h2⟩
    have : q ≠ k := fun hh => he (by rw [← h2, hh])
    omega

theorem vbrMarkRow_spec {A : Csr R} (h : A.WF) (hnp : A.np = A.n) {i : ℕ} (hi : i < A.n) {iw : Arr ℕ}
    (hm : MarkedTo A (A.ptr.get i) iw) : Ok (vbrMarkRow A i iw) (MarkedTo A (A.ptr.get (i + 1))) := by
  have hps := h.ptr.size
  have his := h.isz
  have hmono := h.ptr.mono i hi
  have hidx : ∀ q, q < A.ptr.get (i + 1) → q < A.nnz ∧ A.index.get q < A.n := fun q hq => by
    have := h.ptr.lt_nnz hi hq
    exact ⟨this, hnp ▸ h.idx q this⟩
  unfold vbrMarkRow
  simp only [Ok_bind, Ok_rd]
  refine ⟨by omega, by omega, ?_⟩
  by_cases hab : A.ptr.get i < A.ptr.get (i + 1)
  · rw [if_pos hab]
    obtain ⟨a1, a2⟩ := hidx _ hab
    simp only [Ok_bind, Ok_rd, Ok_wr]
    have hsz := hm.1
    refine ⟨by omega, by omega, ?_⟩
    refine Ok_loop_le (fun j (s : ℕ × Arr ℕ) => s.1 = A.index.get (j - 1) ∧ MarkedTo A (j - 1) s.2) hab
      ⟨by simp, by simpa using hm.set _ a2⟩ ?_ ?_
    · rintro j ⟨jj, w⟩ hj1 hj ⟨g1, g2⟩
      simp only at g1 g2
      obtain ⟨b1, b2⟩ := hidx j hj
      obtain ⟨c1, c2⟩ := hidx (j - 1) (by omega)
      simp only [Ok_bind, Ok_rd, Ok_wr, Ok_ite, Ok_pure]
      have hw := g2.1
      have hst := (g2.set _ b2).setSucc
      rw [show j - 1 + 1 = j by omega] at hst
      refine ⟨by omega, by omega, fun _ => ⟨by omega, by simp; omega, by simp, by simpa using hst⟩, fun he => ⟨by simp, ?_⟩⟩
      rw [ne_eq, not_not] at he
      have := g2.skip (by omega)
      rw [show j - 1 + 1 = j by omega] at this
      simpa using this
    · rintro ⟨jj, w⟩ ⟨g1, g2⟩
      simp only at g1 g2
      simp only [Ok_wr]
      obtain ⟨c1, c2⟩ := hidx (A.ptr.get (i + 1) - 1) (by omega)
      have hw := g2.1
      have hst := g2.setSucc
      rw [show A.ptr.get (i + 1) - 1 + 1 = A.ptr.get (i + 1) by omega] at hst
      rw [g1]
      exact ⟨by omega, hst⟩
  · rw [if_neg hab, Ok_pure]
    rw [show A.ptr.get (i + 1) = A.ptr.get i by omega]; exact hm

theorem vbrRowcol_spec {A : Csr R} (h : A.WF) (hnp : A.np = A.n) (junk : ℕ → ℕ → ℕ) :
    Ok (vbrRowcol junk A) fun r => r.2.size = r.1 + 1 ∧ r.2.get 0 = 0 ∧ (∀ i, i < r.1 → r.2.get i < r.2.get (i + 1)) ∧
      r.2.get r.1 ≤ A.n ∧ (r.2.get r.1 = A.n ↔ A.n = 0 ∨ ∃ q, q < A.nnz ∧ A.index.get q + 1 = A.n) := by
  unfold vbrRowcol
  simp only [Ok_bind]
  refine Ok_fillConst (by simp) fun iw hiw hiz => ?_
  refine Ok_loop_le (fun i w => MarkedTo A (A.ptr.get i) w) (Nat.zero_le _) ⟨by simpa using hiw, ?_⟩
    (fun i w _ hi hw => vbrMarkRow_spec h hnp hi hw) ?_
  · rw [h.ptr.zero, hiz A.n (by omega)]; simp
  rintro w ⟨w1, w2⟩
  rw [h.ptr.last] at w2
  simp only [Ok_wr]
  refine ⟨by omega, ?_⟩
  refine Ok_loop_le (fun i (s : ℕ × Arr ℕ) => s.1 < i ∧ s.2.size = A.n + 1 ∧ s.2.get 0 = 0 ∧
    (∀ k, k < s.1 → s.2.get k < s.2.get (k + 1)) ∧ s.2.get s.1 < i ∧
    (∀ k, i ≤ k → s.2.get k = w.get k) ∧ ((∀ k, k < i → s.2.get s.1 = k → k ≠ 0 → w.get k ≠ 0)) ∧
    (∀ k, 0 < k → k < i → w.get k ≠ 0 → k ≤ s.2.get s.1)) (by omega)
    ⟨Nat.zero_lt_one, by simpa, by simp, by simp, by simp, fun k hk => Arr.set_get_ne _ _ (by omega), by simp, by omega⟩ ?_ ?_
  · rintro i ⟨k, v⟩ hi1 hi ⟨g1, g2, g3, g4, g5, g6, g7, g8⟩
    simp only at g1 g2 g3 g4 g5 g6 g7 g8
    simp only [Ok_bind, Ok_rd]
    refine ⟨by omega, ?_⟩
    rw [g6 i le_rfl]
    by_cases hx : w.get i ≠ 0
    · rw [if_pos hx]
      simp only [Ok_bind, Ok_wr]
      rw [Ok_pure]
      refine ⟨by omega, ?_⟩
      simp only [Arr.set_size]
      refine ⟨by omega, g2, by rw [Arr.set_get_ne _ _ (by omega)]; exact g3, fun q hq => ?_, ?_, fun q hq => ?_, fun q hq he _ => ?_,
        fun q hq1 hq2 hq3 => ?_⟩
      · rw [Arr.set_get_ne _ _ (by omega), Arr.set_get]
        split
        · next he => rw [show q = k by omega]; exact g5
        · exact g4 q (by omega)
      · rw [Arr.set_get_self]; omega
      · rw [Arr.set_get_ne _ _ (by omega)]; exact g6 q (by omega)
      · rw [Arr.set_get_self] at he
        rw [← he]; exact hx
      · rw [Arr.set_get_self]; omega
    · rw [if_neg hx, Ok_pure]
      refine ⟨by simp only; omega, g2, g3, g4, by simp only; omega, fun q hq => g6 q (by omega), fun q hq he h0 => ?_, fun q hq1 hq2 hq3 => ?_⟩
      · simp only at he
        exact g7 q (by omega) he h0
      · by_cases hqi : q = i
        · subst hqi; exact absurd hq3 hx
        · exact g8 q hq1 (by omega) hq3
  · rintro ⟨k, v⟩ ⟨g1, g2, g3, g4, g5, g6, g7, g8⟩
    simp only at g1 g2 g3 g4 g5 g6 g7 g8
    simp only
    refine Ok_loop_fill (g := fun i => v.get i) ?_ ?_
    · intro i y _ hi hs _ _
      simp only [Ok_bind, Ok_rd, Ok_wr]
      have := hs
      simp only [Arr.malloc_size] at this
      exact ⟨by omega, by omega, trivial⟩
    · intro r r1 r2 r3
      rw [Ok_pure]
      simp only [Arr.malloc_size] at r1
      simp only
      have hk : r.get k = v.get k := r2 k (Nat.zero_le _) (by omega)
      refine ⟨r1, by rw [r2 0 (Nat.zero_le _) (by omega), g3], fun i hi => ?_, by omega, ?_⟩
      · rw [r2 i (Nat.zero_le _) (by omega), r2 (i + 1) (Nat.zero_le _) (by omega)]; exact g4 i hi
      · rw [hk, ← w2]
        constructor
        · intro he
          by_cases hn : A.n = 0
          · exact Or.inl hn
          · exact Or.inr (g7 A.n (by omega) he hn)
        · rintro (hn | hn)
          · omega
          · rcases Nat.eq_zero_or_pos A.n with h0 | h0
            · omega
            · have := g8 A.n h0 (by omega) hn
              omega

/-- the permutation of a row segment hits every element -/
theorem perm_segment {g : Equiv.Perm ℕ} {a b : ℕ} (hg : ∀ k, a ≤ k → k < b → a ≤ g k ∧ g k < b) {q : ℕ} (h1 : a ≤ q) (h2 : q < b) :
    ∃ k, a ≤ k ∧ k < b ∧ g k = q := by
  have hsub : (Ico a b).image g ⊆ Ico a b := by
    intro x hx
    simp only [mem_image, mem_Ico] at hx ⊢
    obtain ⟨k, ⟨k1, k2⟩, rfl⟩ := hx
    exact hg k k1 k2
  have heq := eq_of_subset_of_card_le hsub (by rw [card_image_of_injective _ g.injective])
  have : q ∈ (Ico a b).image g := by rw [heq]; simp [h1, h2]
  simp only [mem_image, mem_Ico] at this
  obtain ⟨k, ⟨k1, k2⟩, hk⟩ := this
  exact ⟨k, k1, k2, hk⟩

end Lis
