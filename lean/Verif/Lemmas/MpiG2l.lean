import Verif.Model.Mpi
import Verif.Spec.Mpi
import Verif.Lemmas.Matvec1
import Verif.Base.Lists2

/-! The local numbering of a distributed CSR matrix -/

namespace Lis
open Finset

variable {R : Type}

theorem countP_set {g : Arr ℕ} {jj : ℕ} (hg : g.get jj ≠ 1) : ∀ m, jj < m →
    (List.range m).countP (fun j => (g.set jj 1).get j = 1) = (List.range m).countP (fun j => g.get j = 1) + 1 := by
  have hlt : ∀ m, m ≤ jj → (List.range m).countP (fun j => (g.set jj 1).get j = 1) =
      (List.range m).countP (fun j => g.get j = 1) := by
    intro m hm
    refine List.countP_congr fun j hj => ?_
    rw [List.mem_range] at hj
    rw [Arr.set_get_ne _ _ (by omega)]
  intro m
  induction m with
  | zero => omega
  | succ m ih =>
    intro h
    rw [List.range_succ, List.countP_append, List.countP_append]
    by_cases hm : m = jj
    · subst hm
      rw [hlt m le_rfl]
      simp [hg]
    · rw [ih (by omega)]
      have : (g.set jj 1).get m = g.get m := Arr.set_get_ne _ _ hm
      simp only [List.countP_singleton, this]
      omega

theorem g2lCsr_spec (j1 j2 : ℕ → ℕ) (gn is ie : ℕ) (A : Csr R) (h : A.WF) (hnp : A.np = gn) (hn : is + A.n = ie) :
    Ok (g2lCsr j1 j2 gn is ie A) fun o => IsLocalCsr gn is ie A o.1 o.2 := by
  unfold g2lCsr
  have hps := h.ptr.size
  have hmono : ∀ b, b ≤ A.n → A.ptr.get b ≤ A.nnz := by
    intro b hb
    exact h.ptr.le_nnz hb
  rw [Ok_bind]
  refine Ok_loop_fill (fun _ => 0) (fun i y _ hi hs _ _ => by rw [Ok_wr]; exact ⟨by simpa [hs] using hi, by simp⟩) ?_
  intro g0 hg0 hz _
  rw [Ok_bind]
  refine Ok_loop_le (fun i (s : ℕ × Arr ℕ) => s.2.size = gn ∧ (∀ j, j < gn → (s.2.get j = 1 ↔ (j < is ∨ ie ≤ j) ∧ ∃ k, k < A.ptr.get i ∧ A.index.get k = j)) ∧
    (∀ j, j < gn → s.2.get j = 0 ∨ s.2.get j = 1) ∧ s.1 = A.n + (List.range gn).countP (fun j => s.2.get j = 1)) (Nat.zero_le _) ?_ ?_ ?_
  · refine ⟨hg0, fun j hj => ?_, fun j hj => .inl (hz j (by omega) hj), ?_⟩
    · rw [hz j (by omega) hj, h.ptr.zero]; simp
    · dsimp only
      rw [List.countP_eq_zero.2]
      · rfl
      · intro j hj
        rw [hz j (by omega) (by simpa using hj)]; simp
  · rintro i s _ hi hI
    simp only [Ok_bind, Ok_rd]
    refine ⟨by omega, by omega, ?_⟩
    refine Ok_loop_le (fun b (s : ℕ × Arr ℕ) => s.2.size = gn ∧ (∀ j, j < gn → (s.2.get j = 1 ↔ (j < is ∨ ie ≤ j) ∧ ∃ k, k < b ∧ A.index.get k = j)) ∧
      (∀ j, j < gn → s.2.get j = 0 ∨ s.2.get j = 1) ∧ s.1 = A.n + (List.range gn).countP (fun j => s.2.get j = 1)) (h.ptr.mono i hi) hI ?_
      (fun s hs => hs)
    rintro b s hb1 hb2 ⟨i1, i2, i3, i4⟩
    have hb : b < A.nnz := lt_of_lt_of_le hb2 (hmono _ hi)
    have hjj := h.idx b hb
    rw [hnp] at hjj
    have hisz := h.isz
    simp only [Ok_bind, Ok_rd, Ok_ite]
    have keep : ∀ j, j ≠ A.index.get b → ((∃ k, k < b + 1 ∧ A.index.get k = j) ↔ ∃ k, k < b ∧ A.index.get k = j) := by
      intro j hj
      constructor
      · rintro ⟨k, hk, rfl⟩
        refine ⟨k, ?_, rfl⟩
        rcases Nat.lt_succ_iff_lt_or_eq.1 hk with h | rfl
        · exact h
        · exact absurd rfl hj
      · rintro ⟨k, hk, rfl⟩; exact ⟨k, by omega, rfl⟩
    refine ⟨by omega, fun hext => ⟨by omega, fun hf => ?_, fun hf => ?_⟩, fun hext => ?_⟩
    · simp only [Ok_wr, Ok_pure]
      refine ⟨by omega, by simpa using i1, fun j hj => ?_, fun j hj => ?_, ?_⟩
      · by_cases hj' : j = A.index.get b
        · subst hj'
          simp only [Arr.set_get_self, true_iff]
          exact ⟨hext, b, by omega, rfl⟩
        · rw [Arr.set_get_ne _ _ hj', i2 j hj, keep j hj']
      · by_cases hj' : j = A.index.get b
        · subst hj'; right; simp
        · rw [Arr.set_get_ne _ _ hj']; exact i3 j hj
      · rw [countP_set (by omega) gn hjj, i4]; omega
    · rw [Ok_pure]
      refine ⟨i1, fun j hj => ?_, i3, i4⟩
      by_cases hj' : j = A.index.get b
      · subst hj'
        have : s.2.get (A.index.get b) = 1 := by have := i3 _ hj; omega
        simp only [this, true_iff]
        exact ⟨hext, b, by omega, rfl⟩
      · rw [i2 j hj, keep j hj']
    · rw [Ok_pure]
      refine ⟨i1, fun j hj => ?_, i3, i4⟩
      by_cases hj' : j = A.index.get b
      · subst hj'
        rw [i2 _ hj]
        simp [hext]
      · rw [i2 j hj, keep j hj']
  rintro ⟨np, g⟩ ⟨i1, i2, i3, i4⟩
  dsimp only at i1 i2 i3 i4 ⊢
  rw [h.ptr.last] at i2
  set L := (List.range gn).filter (fun j => g.get j = 1) with hL
  have hLlen : L.length = np - A.n := by rw [hL, ← List.countP_eq_length_filter]; omega
  have hLmem : ∀ j, j ∈ L ↔ j < gn ∧ g.get j = 1 := by intro j; simp [hL]
  have hLsort : L.Pairwise (· < ·) := (List.pairwise_lt_range).filter _
  rw [Ok_bind]
  refine Ok_loop_le (fun i (s : ℕ × Arr ℕ) => s.1 = ((List.range i).filter (fun j => g.get j = 1)).length ∧ s.2.size = np - A.n ∧
    Filled s.2.get ((List.range i).filter (fun j => g.get j = 1))) (Nat.zero_le _) ⟨rfl, rfl, Filled.nil _⟩ ?_ ?_
  · rintro i ⟨c, l⟩ _ hi ⟨k1, k2, k3⟩
    dsimp only at k1 k2 k3 ⊢
    simp only [Ok_bind, Ok_rd, Ok_ite]
    refine ⟨by omega, fun hf => ⟨fun hext => ?_, fun hext => ?_⟩, fun hf => ?_⟩
    · have hlen : ((List.range (i + 1)).filter (fun j => g.get j = 1)).length = c + 1 := by
        rw [List.range_succ, List.filter_append]; simp [hf, k1]
      have hle : ((List.range (i + 1)).filter (fun j => g.get j = 1)).length ≤ L.length := by
        refine List.Sublist.length_le (List.Sublist.filter _ ?_)
        exact List.range_sublist.2 (by omega)
      simp only [Ok_wr, Ok_pure]
      refine ⟨by omega, by omega, by simpa using k2, ?_⟩
      rw [List.range_succ, List.filter_append]
      simp only [List.filter_cons, hf, decide_true, if_true, List.filter_nil]
      refine Filled.snoc k3 fun q => ?_
      rw [← k1, Arr.set_get]
    · exact absurd ((i2 i hi).1 hf).1 hext
    · rw [Ok_pure]
      rw [List.range_succ, List.filter_append]
      simpa [hf] using ⟨k1, k2, k3⟩
  rintro ⟨ns, l2g⟩ ⟨k1, k2, k3⟩
  dsimp only at k1 k2 k3 ⊢
  rw [← hL] at k1 k3
  have hl2g : ∀ p (hp : p < L.length), l2g.get p = L[p] := k3
  have hsz : l2g.size = L.length := by omega
  have hinj : ∀ p q, p < L.length → q < L.length → l2g.get p = l2g.get q → p = q := by
    intro p q hp hq he
    rw [hl2g p hp, hl2g q hq] at he
    exact (List.Nodup.getElem_inj_iff (hLsort.imp (fun h => Nat.ne_of_lt h))).1 he
  have hget : ∀ p, p < L.length → l2g.get p < gn ∧ g.get (l2g.get p) = 1 := by
    intro p hp
    rw [hl2g p hp]
    exact (hLmem _).1 (List.getElem_mem _)
  rw [Ok_bind]
  refine Ok_loop_le (fun i (s : ℕ × Arr ℕ) => s.1 = A.n + i ∧ s.2.size = gn ∧ ∀ p, p < i → s.2.get (l2g.get p) = A.n + p)
    (Nat.zero_le _) ⟨rfl, i1, fun p hp => by omega⟩ ?_ ?_
  · rintro i ⟨c, g'⟩ _ hi ⟨c1, c2, c3⟩
    dsimp only at c1 c2 c3 ⊢
    simp only [Ok_bind, Ok_rd, Ok_wr, Ok_pure]
    refine ⟨by omega, by have := (hget i (by omega)).1; omega, by omega, by simpa using c2, fun p hp => ?_⟩
    by_cases hpi : p = i
    · subst hpi; rw [Arr.set_get_self, c1]
    · rw [Arr.set_get_ne _ _ (fun he => hpi (hinj p i (by omega) (by omega) he))]
      exact c3 p (by omega)
  rintro ⟨c, g'⟩ ⟨c1, c2, c3⟩
  dsimp only at c1 c2 c3 ⊢
  rw [Ok_bind]
  let newc : ℕ → ℕ := fun jj => if is ≤ jj ∧ jj < ie then jj - is else g'.get jj
  refine Ok_loop_le (fun i (ix : Arr ℕ) => ix.size = A.index.size ∧ (∀ k, k < A.ptr.get i → ix.get k = newc (A.index.get k)) ∧
    ∀ k, A.ptr.get i ≤ k → ix.get k = A.index.get k) (Nat.zero_le _) ⟨rfl, fun k hk => by rw [h.ptr.zero] at hk; omega, fun k _ => rfl⟩ ?_ ?_
  · rintro i ix _ hi hI
    simp only [Ok_bind, Ok_rd]
    refine ⟨by omega, by omega, ?_⟩
    refine Ok_loop_le (fun b (ix : Arr ℕ) => ix.size = A.index.size ∧ (∀ k, k < b → ix.get k = newc (A.index.get k)) ∧
      ∀ k, b ≤ k → ix.get k = A.index.get k) (h.ptr.mono i hi) hI ?_ (fun s hs => hs)
    rintro b ix hb1 hb2 ⟨x1, x2, x3⟩
    have hb : b < A.nnz := lt_of_lt_of_le hb2 (hmono _ hi)
    have hjj := h.idx b hb
    rw [hnp] at hjj
    have hisz := h.isz
    simp only [Ok_bind, Ok_rd, Ok_ite, Ok_wr]
    have hxb := x3 b le_rfl
    have upd : ∀ v, v = newc (A.index.get b) → (ix.set b v).size = A.index.size ∧
        (∀ k, k < b + 1 → (ix.set b v).get k = newc (A.index.get k)) ∧ ∀ k, b + 1 ≤ k → (ix.set b v).get k = A.index.get k := by
      rintro v rfl
      refine ⟨x1, fun k hk => ?_, fun k hk => ?_⟩
      · by_cases hkb : k = b
        · subst hkb; simp
        · rw [Arr.set_get_ne _ _ hkb]; exact x2 k (by omega)
      · rw [Arr.set_get_ne _ _ (by omega)]; exact x3 k (by omega)
    refine ⟨by omega, fun hin => ⟨by omega, upd _ ?_⟩, fun hout => ⟨by omega, by omega, upd _ ?_⟩⟩
    · rw [hxb] at hin ⊢; simp only [newc]; rw [if_pos hin]
    · rw [hxb] at hout ⊢; simp only [newc]; rw [if_neg hout]
  intro ix ⟨x1, x2, _⟩
  rw [h.ptr.last] at x2
  rw [Ok_pure]
  refine ⟨rfl, rfl, rfl, rfl, x1, ?_, ?_, ?_, ?_, ?_⟩
  · show np = A.n + l2g.size
    rw [hsz, hLlen]; omega
  · intro p q hpq hq
    dsimp only at hq ⊢
    rw [hsz] at hq
    rw [hl2g p (by omega), hl2g q hq]
    exact List.pairwise_iff_getElem.1 hLsort p q (by omega) hq hpq
  · intro p hp
    dsimp only at hp ⊢
    obtain ⟨h1, h2⟩ := hget p (by omega)
    exact ⟨h1, ((i2 _ h1).1 h2).1⟩
  · intro p hp
    dsimp only at hp ⊢
    obtain ⟨h1, h2⟩ := hget p (by omega)
    exact ((i2 _ h1).1 h2).2
  · intro k hk
    dsimp only
    rw [x2 k hk]
    have hjj := h.idx k hk
    rw [hnp] at hjj
    simp only [newc]
    split
    · next hin =>
      refine ⟨by omega, ?_⟩
      rw [globalCol, if_pos (by omega)]; omega
    · next hout =>
      have h1 : g.get (A.index.get k) = 1 := (i2 _ hjj).2 ⟨by omega, k, hk, rfl⟩
      obtain ⟨p, hp, hpe⟩ := List.getElem_of_mem ((hLmem _).2 ⟨hjj, h1⟩)
      rw [← hpe, ← hl2g p hp, c3 p (by omega)]
      refine ⟨by omega, ?_⟩
      rw [globalCol, if_neg (by omega)]
      congr 1; omega

end Lis
