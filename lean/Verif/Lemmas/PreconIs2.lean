import Verif.Lemmas.PreconIs
import Mathlib.Algebra.Ring.Basic

/-! I+S preconditioner: the filling pass -/

namespace Lis
open Finset
variable {R : Type}

/-- columns of `S` satisfying `p`, distinct, in order of first appearance -/
def keysP (p : ℕ → Bool) (S : List (ℕ × R)) : List ℕ := keysOf ((S.map Prod.fst).filter p)

/-- the stored elements: each such column with its total -/
def rowAcc [AddCommMonoid R] (p : ℕ → Bool) (S : List (ℕ × R)) : List (ℕ × R) :=
  (keysP p S).map fun c => (c, ksum S c)

theorem keysP_mem {p : ℕ → Bool} {S : List (ℕ × R)} {c : ℕ} : c ∈ keysP p S ↔ c ∈ S.map Prod.fst ∧ p c = true := by
  unfold keysP
  rw [mem_keysOf, List.mem_filter]

theorem keysP_new {p : ℕ → Bool} {S : List (ℕ × R)} {c : ℕ} (v : R) (hp : p c = true) (h : c ∉ S.map Prod.fst) :
    keysP p (S ++ [(c, v)]) = keysP p S ++ [c] := by
  unfold keysP
  rw [List.map_append, List.filter_append, show ([(c, v)].map Prod.fst).filter p = [c] by simp [hp],
    keysOf_new fun hh => h (List.mem_filter.1 hh).1]

theorem keysP_old {p : ℕ → Bool} {S : List (ℕ × R)} {c : ℕ} (v : R) (h : c ∈ S.map Prod.fst ∨ p c = false) :
    keysP p (S ++ [(c, v)]) = keysP p S := by
  unfold keysP
  rw [List.map_append, List.filter_append]
  by_cases hp : p c = true
  · have hm : c ∈ S.map Prod.fst := by
      rcases h with h | h
      · exact h
      · rw [hp] at h; cases h
    rw [show ([(c, v)].map Prod.fst).filter p = [c] by simp [hp], keysOf_old (List.mem_filter.2 ⟨hm, hp⟩)]
  · rw [show ([(c, v)].map Prod.fst).filter p = [] by simp [hp], List.append_nil]

theorem keysP_length {p : ℕ → Bool} {S F : List (ℕ × R)} (h : S <+: F) :
    (keysP p S).length ≤ (keysP p F).length :=
  (keysOf_prefix ((h.map _).filter _)).length_le

variable [AddCommMonoid R]

theorem rowAcc_length (p : ℕ → Bool) (S : List (ℕ × R)) : (rowAcc p S).length = (keysP p S).length := by
  simp [rowAcc]

theorem rowAcc_other {p : ℕ → Bool} {S : List (ℕ × R)} {c : ℕ} (v : R) (hp : p c = false) :
    rowAcc p (S ++ [(c, v)]) = rowAcc p S := by
  unfold rowAcc
  rw [keysP_old v (.inr hp)]
  refine List.map_congr_left fun c' hc' => ?_
  have : c ≠ c' := by
    rintro rfl
    rw [(keysP_mem.1 hc').2] at hp
    cases hp
  rw [ksum_snoc, if_neg this, add_zero]

/-- one triangle -/
structure SideInv (n cap : ℕ) (p : ℕ → Bool) (P S : List (ℕ × R)) (t : ℕ × Arr ℕ × Arr R) (iw : Arr ℕ) : Prop where
  st : Pushed cap (P ++ rowAcc p S) t
  pos : ∀ q (hq : q < (keysP p S).length), iw.get (keysP p S)[q] = P.length + q + 1

theorem SideInv.other {n cap : ℕ} {p : ℕ → Bool} {P S : List (ℕ × R)} {t : ℕ × Arr ℕ × Arr R} {iw iw' : Arr ℕ}
    (h : SideInv n cap p P S t iw) {c : ℕ} (v : R) (hp : p c = false) (hiw : ∀ c', c' ≠ c → iw'.get c' = iw.get c') :
    SideInv n cap p P (S ++ [(c, v)]) t iw' := by
  refine ⟨by rw [rowAcc_other v hp]; exact h.st, fun q hq => ?_⟩
  have hk := keysP_old (S := S) v (.inr hp)
  have hq' : q < (keysP p S).length := by rwa [hk] at hq
  have hne : (keysP p S)[q] ≠ c := by
    intro e
    have := (keysP_mem.1 (List.getElem_mem hq')).2
    rw [e, hp] at this; cases this
  rw [List.getElem_of_eq hk, hiw _ hne, h.pos q hq']

theorem isPush_spec {n cap : ℕ} {p : ℕ → Bool} {P S : List (ℕ × R)} {t : ℕ × Arr ℕ × Arr R} {iw : Arr ℕ}
    (h : SideInv n cap p P S t iw) (hsz : iw.size = n) {c : ℕ} (v : R) (hc : c < n) (hp : p c = true)
    (hn : c ∉ S.map Prod.fst) (room : P.length + (keysP p (S ++ [(c, v)])).length ≤ cap) :
    Ok (isPush c v t iw) fun r => SideInv n cap p P (S ++ [(c, v)]) r.1 r.2 ∧ r.2.size = n ∧
      (∀ c', c' ≠ c → r.2.get c' = iw.get c') := by
  obtain ⟨k, ix, vl⟩ := t
  have hkn := keysP_new (S := S) v hp hn
  have hpos : k = P.length + (keysP p S).length := by
    have := h.st.pos
    simpa [rowAcc_length] using this
  obtain ⟨a1, a2, a3⟩ := h.st.push (c, v) (by
    rw [hkn] at room
    simp only [List.length_append, rowAcc_length, List.length_singleton] at room ⊢
    omega)
  unfold isPush
  simp only [Ok_bind, Ok_wr]
  rw [Ok_pure]
  refine ⟨a1, a2, by omega, ⟨?_, fun q hq => ?_⟩, hsz, fun c' hc' => by simp only [Arr.set_get, if_neg hc']⟩
  · have : rowAcc p (S ++ [(c, v)]) = rowAcc p S ++ [(c, v)] := by
      unfold rowAcc
      rw [hkn, List.map_append]
      congr 1
      · refine List.map_congr_left fun c' hc' => ?_
        have : c ≠ c' := by
          rintro rfl
          exact hn (keysP_mem.1 hc').1
        rw [ksum_snoc, if_neg this, add_zero]
      · simp only [List.map_cons, List.map_nil, ksum_snoc, if_true, ksum_absent hn, zero_add]
    rw [this, ← List.append_assoc]
    exact a3
  · rw [List.getElem_of_eq hkn]
    simp only [Arr.set_get]
    rw [hkn, List.length_append, List.length_singleton] at hq
    by_cases e : q < (keysP p S).length
    · rw [List.getElem_append_left e, if_neg, h.pos q e]
      intro e2
      exact hn (e2 ▸ (keysP_mem.1 (List.getElem_mem e)).1)
    · have : q = (keysP p S).length := by omega
      subst this
      simp; omega

theorem isAdd_spec {n cap : ℕ} {p : ℕ → Bool} {P S : List (ℕ × R)} {t : ℕ × Arr ℕ × Arr R} {iw : Arr ℕ}
    (h : SideInv n cap p P S t iw) (hsz : iw.size = n) {c : ℕ} (v : R) (hc : c < n) (hp : p c = true)
    (hiw0 : c ∉ S.map Prod.fst → iw.get c = 0) (room : P.length + (keysP p (S ++ [(c, v)])).length ≤ cap) :
    Ok (isAdd c v t iw) fun r => SideInv n cap p P (S ++ [(c, v)]) r.1 r.2 ∧ r.2.size = n ∧
      (∀ c', c' ≠ c → r.2.get c' = iw.get c') := by
  unfold isAdd
  simp only [Ok_bind, Ok_rd]
  refine ⟨by omega, ?_⟩
  by_cases hn : c ∈ S.map Prod.fst
  swap
  · rw [if_pos (hiw0 hn)]
    exact isPush_spec h hsz v hc hp hn room
  obtain ⟨q, hq, hqc⟩ := List.getElem_of_mem (keysP_mem.2 ⟨hn, hp⟩)
  have hpos := h.pos q hq
  rw [hqc] at hpos
  rw [if_neg (by omega), hpos]
  obtain ⟨k, ix, vl⟩ := t
  obtain ⟨b1, b2, b3, b4⟩ := h.st
  simp only at b1 b2 b3 b4
  have hko := keysP_old (p := p) (S := S) v (.inl hn)
  have hlen : (P ++ rowAcc p S).length = P.length + (keysP p S).length := by rw [List.length_append, rowAcc_length]
  have hlen' : (P ++ rowAcc p (S ++ [(c, v)])).length = (P ++ rowAcc p S).length := by
    rw [List.length_append, List.length_append, rowAcc_length, rowAcc_length, hko]
  rw [hko] at room
  simp only [Ok_bind, Ok_rd, Ok_wr]
  rw [Ok_pure]
  refine ⟨by omega, by omega, ⟨⟨?_, b2, b3, ?_⟩, fun q' hq' => ?_⟩, hsz, fun _ _ => rfl⟩
  · simp only; rw [hlen']; exact b1
  · intro r hr
    have hr' : r < (P ++ rowAcc p S).length := by omega
    have hb := b4 r hr'
    simp only [Arr.set_get] at hb ⊢
    by_cases hrP : r < P.length
    · rw [List.getElem_append_left hrP] at hb ⊢
      rw [if_neg (by omega)]; exact hb
    · have hrq : r - P.length < (keysP p S).length := by omega
      rw [List.getElem_append_right (by omega)] at hb ⊢
      simp only [rowAcc, List.getElem_map] at hb ⊢
      rw [List.getElem_of_eq hko]
      obtain ⟨e1, e2⟩ := Prod.ext_iff.1 hb
      simp only at e1 e2
      rw [ksum_snoc]
      by_cases e : r = P.length + q + 1 - 1
      · have hrq2 : r - P.length = q := by omega
        have hrr : P.length + q + 1 - 1 = r := e.symm
        simp only [hrq2] at e1 e2 ⊢
        rw [hqc] at e1 e2 ⊢
        rw [hrr, if_pos rfl, if_pos rfl, e1, e2]
      · rw [if_neg e, if_neg, add_zero, e1, e2]
        intro hcc
        have := (List.Nodup.getElem_inj_iff (nodup_keysOf _)).1 ((hqc.trans hcc) : (keysP p S)[q] = (keysP p S)[r - P.length])
        omega
  · rw [List.getElem_of_eq hko]
    exact h.pos q' (by rw [hko] at hq'; exact hq')

/-- both triangles, the diagonal and `iw` -/
structure FillInv (n i cl cu : ℕ) (PL PU : List (ℕ × R)) (diag0 : Arr R) (S : List (ℕ × R)) (s : IsFill R) : Prop where
  lo : SideInv n cl (fun c => decide (c < i)) PL S s.lo s.iw
  up : SideInv n cu (fun c => decide (i < c)) PU S s.up s.iw
  dsz : s.diag.size = n
  di : s.diag.get i = diag0.get i + ksum S i
  dr : ∀ r, r ≠ i → s.diag.get r = diag0.get r
  isz : s.iw.size = n
  iw0 : ∀ c, c < n → (c = i ∨ c ∉ S.map Prod.fst) → s.iw.get c = 0

/-- room for the elements of `F` -/
structure Room (i cl cu : ℕ) (PL PU F : List (ℕ × R)) : Prop where
  lo : PL.length + (keysP (fun c => decide (c < i)) F).length ≤ cl
  up : PU.length + (keysP (fun c => decide (i < c)) F).length ≤ cu

theorem Room.pre {i cl cu : ℕ} {PL PU F F' : List (ℕ × R)} (h : Room i cl cu PL PU F) (hp : F' <+: F) :
    Room i cl cu PL PU F' :=
  ⟨le_trans (Nat.add_le_add_left (keysP_length hp) _) h.lo, le_trans (Nat.add_le_add_left (keysP_length hp) _) h.up⟩

variable {n i cl cu : ℕ} {PL PU S : List (ℕ × R)} {diag0 : Arr R} {s : IsFill R}

theorem isAddL_spec (h : FillInv n i cl cu PL PU diag0 S s) {c : ℕ} (v : R) (hc : c < n) (hci : c < i)
    (room : Room i cl cu PL PU (S ++ [(c, v)])) :
    Ok (isAddL c v s) (FillInv n i cl cu PL PU diag0 (S ++ [(c, v)])) := by
  unfold isAddL
  simp only [Ok_bind]
  refine (isAdd_spec h.lo h.isz v hc (by simpa using hci) (fun hn => h.iw0 c hc (.inr hn)) room.lo).mono ?_
  rintro ⟨t, iw⟩ ⟨a1, a2, a3⟩
  simp only at a1 a2 a3
  rw [Ok_pure]
  refine ⟨a1, h.up.other v (by simp; omega) a3, h.dsz, ?_, h.dr, a2, fun c' hc' hh => ?_⟩
  · rw [ksum_snoc, if_neg (by omega), add_zero]; exact h.di
  · have hne : c' ≠ c := by
      rintro rfl
      rcases hh with hh | hh
      · omega
      · exact hh (by simp)
    simp only
    rw [a3 c' hne]
    refine h.iw0 c' hc' ?_
    rcases hh with hh | hh
    · exact .inl hh
    · exact .inr fun hm => hh (by rw [List.map_append, List.mem_append]; exact .inl hm)

theorem isAddU_spec (h : FillInv n i cl cu PL PU diag0 S s) {c : ℕ} (v : R) (hc : c < n) (hci : i < c)
    (room : Room i cl cu PL PU (S ++ [(c, v)])) :
    Ok (isAddU c v s) (FillInv n i cl cu PL PU diag0 (S ++ [(c, v)])) := by
  unfold isAddU
  simp only [Ok_bind]
  refine (isAdd_spec h.up h.isz v hc (by simpa using hci) (fun hn => h.iw0 c hc (.inr hn)) room.up).mono ?_
  rintro ⟨t, iw⟩ ⟨a1, a2, a3⟩
  simp only at a1 a2 a3
  rw [Ok_pure]
  refine ⟨h.lo.other v (by simp; omega) a3, a1, h.dsz, ?_, h.dr, a2, fun c' hc' hh => ?_⟩
  · rw [ksum_snoc, if_neg (by omega), add_zero]; exact h.di
  · have hne : c' ≠ c := by
      rintro rfl
      rcases hh with hh | hh
      · omega
      · exact hh (by simp)
    simp only
    rw [a3 c' hne]
    refine h.iw0 c' hc' ?_
    rcases hh with hh | hh
    · exact .inl hh
    · exact .inr fun hm => hh (by rw [List.map_append, List.mem_append]; exact .inl hm)

theorem isPushL_spec (h : FillInv n i cl cu PL PU diag0 S s) {c : ℕ} (v : R) (hc : c < n) (hci : c < i)
    (hn : c ∉ S.map Prod.fst) (room : Room i cl cu PL PU (S ++ [(c, v)])) :
    Ok (isPushL c v s) (FillInv n i cl cu PL PU diag0 (S ++ [(c, v)])) := by
  have := isAddL_spec h v hc hci room
  unfold isAddL isAdd at this
  simp only [Ok_bind, Ok_rd] at this
  unfold isPushL
  simp only [Ok_bind]
  have h2 := this.2
  rwa [if_pos (h.iw0 c hc (.inr hn))] at h2

theorem isPushU_spec (h : FillInv n i cl cu PL PU diag0 S s) {c : ℕ} (v : R) (hc : c < n) (hci : i < c)
    (hn : c ∉ S.map Prod.fst) (room : Room i cl cu PL PU (S ++ [(c, v)])) :
    Ok (isPushU c v s) (FillInv n i cl cu PL PU diag0 (S ++ [(c, v)])) := by
  have := isAddU_spec h v hc hci room
  unfold isAddU isAdd at this
  simp only [Ok_bind, Ok_rd] at this
  unfold isPushU
  simp only [Ok_bind]
  have h2 := this.2
  rwa [if_pos (h.iw0 c hc (.inr hn))] at h2

theorem isAddLU_spec (h : FillInv n i cl cu PL PU diag0 S s) {c : ℕ} (v : R) (hc : c < n)
    (room : Room i cl cu PL PU (S ++ [(c, v)])) :
    Ok (isAddLU i c v s) (FillInv n i cl cu PL PU diag0 (S ++ [(c, v)])) := by
  unfold isAddLU
  split
  · next e => exact isAddL_spec h v hc e room
  split
  · next e => exact isAddU_spec h v hc e room
  · next e1 e2 =>
    obtain rfl : c = i := by omega
    have hd := h.dsz
    simp only [Ok_bind, Ok_rd, Ok_wr]
    rw [Ok_pure]
    refine ⟨by omega, by omega, h.lo.other v (by simp) fun _ _ => rfl, h.up.other v (by simp) fun _ _ => rfl, hd, ?_, ?_,
      h.isz, fun c' hc' hh => ?_⟩
    · simp only [Arr.set_get, if_true]
      rw [h.di, ksum_snoc, if_pos rfl, add_assoc]
    · intro r hr
      simp only [Arr.set_get, if_neg hr]
      exact h.dr r hr
    · refine h.iw0 c' hc' ?_
      rcases hh with hh | hh
      · exact .inl hh
      · exact .inr fun hm => hh (by rw [List.map_append, List.mem_append]; exact .inl hm)

end Lis
