import Verif.Model.Assembly
import Verif.Base.Sum
import Mathlib.Algebra.BigOperators.Group.List.Basic

/-! Invariant of the assembly buffers. -/

namespace Lis
open Finset
variable {R : Type}

/-- the entry held in the row buffers (local row `i`, global column `j`) -/
def Bufs.entry [AddCommMonoid R] (B : Bufs R) (i j : ℕ) : R :=
  ∑ k ∈ range (B.row.get i), if (B.idx.get i).get k = j then (B.val.get i).get k else 0

/-- position `(i,j)` is stored -/
def Bufs.Stored (B : Bufs R) (i j : ℕ) : Prop := ∃ k, k < B.row.get i ∧ (B.idx.get i).get k = j

structure Bufs.Inv (n gn : ℕ) (B : Bufs R) : Prop where
  wsz : n ≤ B.w.size
  rsz : n ≤ B.row.size
  isz : n ≤ B.idx.size
  vsz : n ≤ B.val.size
  ib : ∀ i, i < n → (B.idx.get i).size = B.w.get i
  vb : ∀ i, i < n → (B.val.get i).size = B.w.get i
  cap : ∀ i, i < n → B.row.get i ≤ B.w.get i
  col : ∀ i, i < n → ∀ k, k < B.row.get i → (B.idx.get i).get k < gn
  nodup : ∀ i, i < n → ∀ k l, k < B.row.get i → l < B.row.get i →
    (B.idx.get i).get k = (B.idx.get i).get l → k = l

theorem findCol_spec (idx : Arr ℕ) (r j : ℕ) (h : r ≤ idx.size) :
    Ok (findCol idx r j) fun k => k ≤ r ∧ (∀ l, l < k → idx.get l ≠ j) ∧ (k < r → idx.get k = j) := by
  unfold findCol
  refine Ok_loopB (fun k s => s = k ∧ ∀ l, l < k → idx.get l ≠ j) (by simp) ?_ ?_
  · rintro k s _ hk ⟨rfl, hs⟩
    simp only [Ok_bind, Ok_rd, Ok_pure]
    refine ⟨by omega, ?_⟩
    by_cases hj : idx.get s = j
    · simp only [hj, if_true]
      exact ⟨by omega, hs, by simp⟩
    · simp only [hj, if_false]
      refine ⟨trivial, fun l hl => ?_⟩
      by_cases hl' : l = s
      · rwa [hl']
      · exact hs l (by omega)
  · rintro s ⟨rfl, hs⟩
    exact ⟨by omega, fun l hl => hs l (by omega), by omega⟩

theorem growRow_spec [AddCommMonoid R] (J : Junk R) {n gn li annz : ℕ} {B : Bufs R}
    (h : B.Inv n gn) (hl : li < n) (ha : 0 < annz) :
    Ok (growRow J li annz B) fun B' => B'.Inv n gn ∧ B'.row.get li < B'.w.get li ∧
      (∀ i j, i < n → B'.entry i j = B.entry i j) ∧ ∀ i j, i < n → (B'.Stored i j ↔ B.Stored i j) := by
  obtain ⟨h1, h2, h3, h4, h5, h6, h7, h8, h9⟩ := h
  have hw := h5 li hl
  have hv := h6 li hl
  have hc := h7 li hl
  unfold growRow
  simp only [Ok_bind, Ok_rd]
  refine ⟨by omega, by omega, ?_⟩
  rw [Ok_ite]
  constructor
  · intro heq
    simp only [Ok_bind, Ok_rd, Ok_wr, Ok_pure, Arr.realloc]
    refine ⟨by omega, by omega, ?_⟩
    rw [if_pos (by omega)]
    simp only [Ok_some]
    refine ⟨by omega, by omega, ?_⟩
    rw [if_pos (by omega)]
    simp only [Ok_some]
    refine ⟨by omega, ?_, ?_, ?_, ?_⟩
    · refine ⟨by simpa, by simpa, by simpa, by simpa, fun i hi => ?_, fun i hi => ?_, fun i hi => ?_,
        fun i hi k hk => ?_, fun i hi k l hk hl' => ?_⟩
      · by_cases hil : i = li
        · subst hil; simp
        · simp only [Arr.set_get_ne _ _ hil]; exact h5 i hi
      · by_cases hil : i = li
        · subst hil; simp
        · simp only [Arr.set_get_ne _ _ hil]; exact h6 i hi
      · by_cases hil : i = li
        · subst hil; simp; omega
        · simp only [Arr.set_get_ne _ _ hil]; exact h7 i hi
      · by_cases hil : i = li
        · subst hil
          simp only [Arr.set_get_self]
          rw [if_pos (by simp at hk; omega)]; exact h8 i hi k hk
        · simp only [Arr.set_get_ne _ _ hil]; exact h8 i hi k hk
      · by_cases hil : i = li
        · subst hil
          simp only [Arr.set_get_self]
          simp only at hk hl'
          rw [if_pos (by omega), if_pos (by omega)]; exact h9 i hi k l hk hl'
        · simp only [Arr.set_get_ne _ _ hil]; exact h9 i hi k l hk hl'
    · simp; omega
    · intro i j hi
      unfold Bufs.entry
      refine sum_congr rfl fun k hk => ?_
      simp only [mem_range] at hk
      by_cases hil : i = li
      · subst hil
        simp only [Arr.set_get_self]
        rw [if_pos (show k < (B.idx.get i).size by omega), if_pos (show k < (B.val.get i).size by omega)]
      · simp only [Arr.set_get_ne _ _ hil]
    · intro i j hi
      unfold Bufs.Stored
      refine exists_congr fun k => and_congr_right fun hk => ?_
      by_cases hil : i = li
      · subst hil
        simp only [Arr.set_get_self]
        simp only at hk
        rw [if_pos (by omega)]
      · simp only [Arr.set_get_ne _ _ hil]
  · intro hne
    simp only [Ok_pure]
    exact ⟨⟨h1, h2, h3, h4, h5, h6, h7, h8, h9⟩, by omega, by simp, by simp⟩

/-- the entry at a stored position is the element stored there -/
theorem Bufs.entry_at [AddCommMonoid R] {n gn : ℕ} {B : Bufs R} (h : B.Inv n gn) {i k : ℕ} (hi : i < n)
    (hk : k < B.row.get i) : B.entry i ((B.idx.get i).get k) = (B.val.get i).get k := by
  unfold Bufs.entry
  rw [sum_eq_single k, if_pos rfl]
  · intro l hl hne
    rw [if_neg]
    intro hh
    exact hne (h.nodup i hi l k (by simpa using hl) hk hh)
  · intro hh; simp at hh; omega

theorem Bufs.entry_not_stored [AddCommMonoid R] {B : Bufs R} {i j : ℕ} (hs : ¬ B.Stored i j) :
    B.entry i j = 0 := by
  refine sum_eq_zero fun k hk => ?_
  rw [if_neg]
  exact fun hh => hs ⟨k, by simpa using hk, hh⟩

theorem putRow_spec [AddCommMonoid R] {n gn li j : ℕ} {B : Bufs R} (flag : ℤ) (v : R)
    (h : B.Inv n gn) (hl : li < n) (hj : j < gn) (hroom : B.row.get li < B.w.get li) :
    Ok (putRow flag li j v B) fun B' => B'.Inv n gn ∧
      (∀ a b, a < n → B'.entry a b = if a = li ∧ b = j then
        (if flag = 0 then v else B.entry a b + v) else B.entry a b) ∧
      ∀ a b, a < n → (B'.Stored a b ↔ B.Stored a b ∨ (a = li ∧ b = j)) := by
  have hh := h
  obtain ⟨h1, h2, h3, h4, h5, h6, h7, h8, h9⟩ := h
  have hw := h5 li hl
  have hv := h6 li hl
  unfold putRow
  simp only [Ok_bind, Ok_rd]
  refine ⟨by omega, by omega, ?_⟩
  refine (findCol_spec _ _ j (by omega)).mono ?_
  rintro k ⟨hk1, hk2, hk3⟩
  refine ⟨by omega, ?_⟩
  -- overwriting element k of row li by u
  have upd : k < B.row.get li → ∀ u : R,
      ({ B with val := B.val.set li ((B.val.get li).set k u) } : Bufs R).Inv n gn ∧
      (∀ a b, a < n → ({ B with val := B.val.set li ((B.val.get li).set k u) } : Bufs R).entry a b =
        if a = li ∧ b = j then u else B.entry a b) ∧
      ∀ a b, a < n → (({ B with val := B.val.set li ((B.val.get li).set k u) } : Bufs R).Stored a b ↔
        B.Stored a b ∨ (a = li ∧ b = j)) := by
    intro hk u
    have hkj := hk3 hk
    have inv' : ({ B with val := B.val.set li ((B.val.get li).set k u) } : Bufs R).Inv n gn := by
      refine ⟨by simpa, by simpa, by simpa, by simpa, h5, fun i hi => ?_, h7, h8, h9⟩
      by_cases hil : i = li
      · subst hil; simpa using h6 i hi
      · simp only [Arr.set_get_ne _ _ hil]; exact h6 i hi
    refine ⟨inv', fun a b ha => ?_, fun a b ha => ?_⟩
    · by_cases hil : a = li
      · subst hil
        by_cases hb : b = j
        · subst hb
          rw [if_pos ⟨rfl, rfl⟩]
          have := Bufs.entry_at inv' ha (k := k) hk
          simp only [hkj, Arr.set_get_self] at this
          exact this
        · rw [if_neg (by simp [hb])]
          unfold Bufs.entry
          refine sum_congr rfl fun l hl => ?_
          simp only [Arr.set_get_self]
          by_cases hlk : l = k
          · subst hlk; rw [hkj, if_neg (fun hx => hb hx.symm), if_neg (fun hx => hb hx.symm)]
          · rw [Arr.set_get_ne _ _ hlk]
      · rw [if_neg (by simp [hil])]
        unfold Bufs.entry
        simp only [Arr.set_get_ne _ _ hil]
    · have : B.Stored li j := ⟨k, hk, hkj⟩
      constructor
      · exact Or.inl
      · rintro (hs | ⟨rfl, rfl⟩)
        · exact hs
        · exact this
  rw [Ok_ite]
  constructor
  · intro hk
    have hold : B.entry li j = (B.val.get li).get k := by
      rw [← hk3 hk]; exact Bufs.entry_at hh hl hk
    rw [Ok_ite]
    constructor
    · intro hf
      simp only [Ok_bind, Ok_wr, Ok_pure]
      refine ⟨by omega, by omega, ?_⟩
      simp only [hf, if_true]
      exact upd hk v
    · intro hf
      simp only [Ok_bind, Ok_rd, Ok_wr, Ok_pure]
      refine ⟨by omega, by omega, by omega, ?_⟩
      obtain ⟨u1, u2, u3⟩ := upd hk ((B.val.get li).get k + v)
      refine ⟨u1, fun a b ha => ?_, u3⟩
      rw [u2 a b ha]
      by_cases hc : a = li ∧ b = j
      · obtain ⟨rfl, rfl⟩ := hc; simp [hf, hold]
      · rw [if_neg hc, if_neg hc]
  · intro hk
    simp only [Ok_bind, Ok_wr, Ok_pure]
    refine ⟨by omega, by omega, by omega, by omega, by omega, ?_⟩
    have hkr : k = B.row.get li := by omega
    subst hkr
    have hns : ¬ B.Stored li j := by
      rintro ⟨l, hl1, hl2⟩; exact hk2 l hl1 hl2
    refine ⟨⟨by simpa, by simpa, by simpa, by simpa, fun i hi => ?_, fun i hi => ?_, fun i hi => ?_,
      fun i hi k hk => ?_, fun i hi k l hk hl' => ?_⟩, fun a b ha => ?_, fun a b ha => ?_⟩
    · by_cases hil : i = li
      · subst hil; simpa using h5 i hi
      · simp only [Arr.set_get_ne _ _ hil]; exact h5 i hi
    · by_cases hil : i = li
      · subst hil; simpa using h6 i hi
      · simp only [Arr.set_get_ne _ _ hil]; exact h6 i hi
    · by_cases hil : i = li
      · subst hil; simp; omega
      · simp only [Arr.set_get_ne _ _ hil]; exact h7 i hi
    · by_cases hil : i = li
      · subst hil
        simp only [Arr.set_get_self] at hk ⊢
        rw [Arr.set_get]
        split
        · exact hj
        · exact h8 i hi k (by omega)
      · simp only [Arr.set_get_ne _ _ hil] at hk ⊢; exact h8 i hi k hk
    · by_cases hil : i = li
      · subst hil
        simp only [Arr.set_get_self] at hk hl' ⊢
        simp only [Arr.set_get]
        split
        · split
          · intro; omega
          · intro hx; exact absurd hx.symm (hk2 l (by omega))
        · split
          · intro hx; exact absurd hx (hk2 k (by omega))
          · exact h9 i hi k l (by omega) (by omega)
      · simp only [Arr.set_get_ne _ _ hil] at hk hl' ⊢; exact h9 i hi k l hk hl'
    · by_cases hil : a = li
      · subst hil
        have : ∀ b, Bufs.entry { B with
            row := B.row.set a (B.row.get a + 1)
            idx := B.idx.set a ((B.idx.get a).set (B.row.get a) j)
            val := B.val.set a ((B.val.get a).set (B.row.get a) v) } a b =
            B.entry a b + if b = j then v else 0 := by
          intro b
          unfold Bufs.entry
          simp only [Arr.set_get_self]
          rw [sum_range_succ, Arr.set_get_self, Arr.set_get_self]
          congr 1
          · refine sum_congr rfl fun k hk => ?_
            simp only [mem_range] at hk
            rw [Arr.set_get_ne _ _ (by omega), Arr.set_get_ne _ _ (by omega)]
          · simp only [eq_comm]
        rw [this]
        by_cases hb : b = j
        · subst hb; simp [Bufs.entry_not_stored hns]
        · simp [hb]
      · rw [if_neg (by simp [hil])]
        unfold Bufs.entry
        simp only [Arr.set_get_ne _ _ hil]
    · unfold Bufs.Stored
      by_cases hil : a = li
      · subst hil
        simp only [Arr.set_get_self, true_and]
        constructor
        · rintro ⟨k, hk1, hk2'⟩
          rw [Arr.set_get] at hk2'
          split at hk2'
          · exact Or.inr hk2'.symm
          · exact Or.inl ⟨k, by omega, hk2'⟩
        · rintro (⟨k, hk1, hk2'⟩ | rfl)
          · exact ⟨k, by omega, by rw [Arr.set_get_ne _ _ (by omega)]; exact hk2'⟩
          · exact ⟨B.row.get a, by omega, by simp⟩
      · simp only [Arr.set_get_ne _ _ hil, hil, false_and, or_false]

end Lis
