import Verif.Base.Lists
import Verif.Spec.Formats

/-! Sequentially filled buffers, prefix sums, and compressed matrices described by row lists. -/

namespace Lis
open Finset

theorem flat_lt {i n j m : ℕ} (hi : i < n) (hj : j < m) : i * m + j < n * m := by
  have h := Nat.mul_le_mul_right m (show i + 1 ≤ n from hi)
  rw [Nat.add_mul, Nat.one_mul] at h
  omega

section filled
variable {α : Type}

/-- the buffer starts with the elements of `L` -/
def Filled (buf : ℕ → α) (L : List α) : Prop := ∀ q (h : q < L.length), buf q = L[q]

theorem Filled.nil (buf : ℕ → α) : Filled buf [] := fun q h => by simp at h

theorem Filled.snoc {buf buf' : ℕ → α} {L : List α} {e : α} (h : Filled buf L)
    (hb : ∀ q, buf' q = if q = L.length then e else buf q) : Filled buf' (L ++ [e]) := by
  intro q hq
  rw [hb]
  simp only [List.length_append, List.length_singleton] at hq
  split
  · next hh => subst hh; simp
  · next hh => rw [h q (by omega), List.getElem_append_left (by omega)]

theorem Filled.row {buf : ℕ → α} {n : ℕ} {L : ℕ → List α} (h : Filled buf (concatRows n L)) {i : ℕ}
    (hi : i < n) {q : ℕ} (hq : q < (L i).length) :
    buf ((concatRows i L).length + q) = (L i)[q] := by
  have hp := concatRows_take_prefix hi L hq
  have hlen : (concatRows i L).length + q < (concatRows i L ++ (L i).take q ++ [(L i)[q]]).length := by
    simp; omega
  rw [h _ (lt_of_lt_of_le hlen hp.length_le), ← hp.getElem hlen, List.getElem_append_right (by simp)]
  simp

theorem Filled.sum {R : Type*} [AddCommMonoid R] {buf : ℕ → α} {n : ℕ} {L : ℕ → List α}
    (h : Filled buf (concatRows n L)) {i : ℕ} (hi : i < n) (f : α → R) :
    ∑ q ∈ Ico (concatRows i L).length (concatRows (i + 1) L).length, f (buf q) = ((L i).map f).sum :=
  sum_Ico_list _ _ _ _ _ (by rw [concatRows_succ, List.length_append]) fun q hq => by rw [h.row hi hq]
end filled

/-- running prefix sums `ptr[i+1] = ptr[i] + r(i)` -/
theorem Ok_prefix {n : ℕ} {ptr : Arr ℕ} {f : ℕ → Arr ℕ → Option (Arr ℕ)} (r : ℕ → ℕ)
    {Q : Arr ℕ → Prop}
    (hf : ∀ i (p : Arr ℕ), i < n → p.size = ptr.size → Ok (f i p) fun p' => p' = p.set (i + 1) (p.get i + r i))
    (hq : ∀ p : Arr ℕ, p.size = ptr.size → (∀ i, i ≤ n → p.get i = ptr.get 0 + ∑ k ∈ range i, r k) → Q p) :
    Ok (loop 0 n ptr f) Q := by
  refine Ok_loop_le (fun i (p : Arr ℕ) => p.size = ptr.size ∧
    ∀ k, k ≤ i → p.get k = ptr.get 0 + ∑ l ∈ range k, r l) (Nat.zero_le _) ⟨rfl, ?_⟩ ?_ ?_
  · intro k hk; rw [show k = 0 by omega]; simp
  · rintro i p _ hi ⟨hs, hp⟩
    refine (hf i p hi hs).mono ?_
    rintro p' rfl
    refine ⟨hs, fun k hk => ?_⟩
    rw [Arr.set_get]
    split
    · next hk' => rw [hk', sum_range_succ, hp i le_rfl, add_assoc]
    · exact hp k (by omega)
  · rintro p ⟨hs, hp⟩; exact hq p hs hp

section csr
variable {R : Type}

/-- `A` stores row `i` as the list `L i` of (column, value) pairs -/
structure Csr.Rows (A : Csr R) (L : ℕ → List (ℕ × R)) : Prop where
  psz : A.n + 1 ≤ A.ptr.size
  ptr : ∀ i, i ≤ A.n → A.ptr.get i = (concatRows i L).length
  nnz : A.nnz = (concatRows A.n L).length
  isz : A.nnz ≤ A.index.size
  vsz : A.nnz ≤ A.value.size
  fil : Filled (fun q => (A.index.get q, A.value.get q)) (concatRows A.n L)

theorem Csr.Rows.wf {A : Csr R} {L : ℕ → List (ℕ × R)} (h : A.Rows L)
    (hc : ∀ i, i < A.n → ∀ e ∈ L i, e.1 < A.np) : A.WF := by
  refine ⟨⟨h.psz, by rw [h.ptr 0 (by omega)]; rfl, fun i hi => ?_, by rw [h.ptr _ le_rfl, h.nnz]⟩,
    h.isz, h.vsz, fun k hk => ?_⟩
  · rw [h.ptr i (by omega), h.ptr (i + 1) (by omega), concatRows_succ]; simp
  · rw [h.nnz] at hk
    have := h.fil k hk
    have h2 : (A.index.get k) = ((concatRows A.n L)[k]).1 := by rw [← this]
    rw [h2]
    obtain ⟨i, hi, he⟩ := concatRows_mem.1 (List.getElem_mem hk)
    exact hc i hi _ he

theorem Csr.Rows.entry [AddCommMonoid R] {A : Csr R} {L : ℕ → List (ℕ × R)} (h : A.Rows L) {i : ℕ}
    (hi : i < A.n) (j : ℕ) : A.entry i j = ((L i).map fun e => if e.1 = j then e.2 else 0).sum := by
  unfold Csr.entry
  rw [h.ptr i (by omega), h.ptr (i + 1) (by omega),
    ← h.fil.sum hi (fun e => if e.1 = j then e.2 else 0)]

theorem Csr.Rows.nodup {A : Csr R} {L : ℕ → List (ℕ × R)} (h : A.Rows L)
    (hd : ∀ i, i < A.n → ((L i).map Prod.fst).Nodup) : A.NoDup := by
  intro i hi k l hk1 hk2 hl1 hl2 heq
  have hp := h.ptr i (by omega)
  have hp' := h.ptr (i + 1) (by omega)
  rw [concatRows_succ, List.length_append] at hp'
  have e1 := h.fil.row hi (q := k - A.ptr.get i) (by omega)
  have e2 := h.fil.row hi (q := l - A.ptr.get i) (by omega)
  rw [← hp, show A.ptr.get i + (k - A.ptr.get i) = k by omega] at e1
  rw [← hp, show A.ptr.get i + (l - A.ptr.get i) = l by omega] at e2
  have e1' := congrArg Prod.fst e1
  have e2' := congrArg Prod.fst e2
  simp only at e1' e2'
  have hn := hd i hi
  have := (List.Nodup.getElem_inj_iff hn (i := k - A.ptr.get i) (j := l - A.ptr.get i)
    (hi := by simp; omega) (hj := by simp; omega)).1 (by simp [← e1', ← e2', heq])
  omega

/-- the row lists of a well-formed CSR matrix -/
def Csr.rowList (A : Csr R) (i : ℕ) : List (ℕ × R) :=
  (List.range (A.ptr.get (i + 1) - A.ptr.get i)).map fun q =>
    (A.index.get (A.ptr.get i + q), A.value.get (A.ptr.get i + q))

theorem Csr.rowList_length (A : Csr R) (i : ℕ) :
    (A.rowList i).length = A.ptr.get (i + 1) - A.ptr.get i := by simp [Csr.rowList]

theorem sum_Ico_eq_range' [AddCommMonoid R] (a b : ℕ) (f : ℕ → R) :
    ∑ k ∈ Ico a b, f k = ((List.range (b - a)).map fun q => f (a + q)).sum := by
  rw [map_range_sum, sum_Ico_eq_sum_range]

theorem Csr.entry_rowList [AddCommMonoid R] (A : Csr R) (i j : ℕ) :
    A.entry i j = ((A.rowList i).map fun e => if e.1 = j then e.2 else 0).sum := by
  unfold Csr.entry Csr.rowList
  rw [sum_Ico_eq_range', List.map_map]
  rfl

theorem Csr.WF.rowList_col {A : Csr R} (h : A.WF) {i : ℕ} (hi : i < A.n) {e : ℕ × R}
    (he : e ∈ A.rowList i) : e.1 < A.np := by
  simp only [Csr.rowList, List.mem_map, List.mem_range] at he
  obtain ⟨q, hq, rfl⟩ := he
  exact h.idx _ (h.ptr.lt_nnz hi (by omega))

/-- `A` is CSC, holding column `c` as the elements of key `c` of `full`, payload (row, value) -/
structure Csc.Cols (A : Csc R) (full : List (ℕ × ℕ × R)) : Prop where
  psz : A.np + 1 ≤ A.ptr.size
  zero : A.ptr.get 0 = 0
  segs : Segs A.np A.ptr.get full
  nnz : A.nnz = A.ptr.get A.np
  isz : A.nnz ≤ A.index.size
  vsz : A.nnz ≤ A.value.size
  scat : ∃ iw, Scat A.np A.ptr.get full iw (fun q => (A.index.get q, A.value.get q))

/-- every slot belongs to a segment -/
theorem Segs.locate {α : Type} {m : ℕ} {p : ℕ → ℕ} {full : List (ℕ × α)} (h : Segs m p full)
    (h0 : p 0 = 0) {k : ℕ} (hk : k < p m) :
    ∃ c, c < m ∧ ∃ q, q < (byKey c full).length ∧ k = p c + q := by
  induction m with
  | zero => omega
  | succ m ih =>
    by_cases hk' : k < p m
    · obtain ⟨c, hc, q, hq⟩ := ih ⟨fun c hc => h.succ c (by omega)⟩ hk'
      exact ⟨c, by omega, q, hq⟩
    · have := h.succ m (by omega)
      exact ⟨m, by omega, k - p m, by omega, by omega⟩

theorem byKey_mem {α : Type} {c : ℕ} {L : List (ℕ × α)} {x : α} : x ∈ byKey c L ↔ (c, x) ∈ L := by
  unfold byKey
  simp only [List.mem_filterMap]
  constructor
  · rintro ⟨⟨a, b⟩, h1, h2⟩
    split at h2
    · next h => simp only at h; simp only [Option.some.injEq] at h2; subst h h2; exact h1
    · simp at h2
  · intro h; exact ⟨_, h, by simp⟩

theorem Csc.Cols.wf {A : Csc R} {full : List (ℕ × ℕ × R)} (h : A.Cols full)
    (hc : ∀ e ∈ full, e.2.1 < A.n) : A.WF := by
  refine ⟨⟨h.psz, h.zero, fun i hi => ?_, h.nnz.symm⟩, h.isz, h.vsz, fun k hk => ?_⟩
  · rw [h.segs.succ i hi]; omega
  · rw [h.nnz] at hk
    obtain ⟨c, hc', q, hq, rfl⟩ := h.segs.locate h.zero hk
    obtain ⟨iw, hs⟩ := h.scat
    have := congrArg Prod.fst (hs.put c hc' q hq)
    simp only at this
    rw [this]
    exact hc (c, (byKey c full)[q]) (byKey_mem.1 (List.getElem_mem hq))

theorem Csc.Cols.entry [AddCommMonoid R] {A : Csc R} {full : List (ℕ × ℕ × R)} (h : A.Cols full)
    {j : ℕ} (hj : j < A.np) (i : ℕ) :
    A.entry i j = (full.map fun e => if e.1 = j then (if e.2.1 = i then e.2.2 else 0) else 0).sum := by
  obtain ⟨iw, hs⟩ := h.scat
  rw [← hs.sum h.segs hj (fun x => if x.1 = i then x.2 else 0)]
  rfl

/-- key/payload list of a family of rows: element `(j,v)` of row `i` becomes `(j,(i,v))` -/
def byCol (n : ℕ) (L : ℕ → List (ℕ × R)) : List (ℕ × ℕ × R) :=
  concatRows n fun i => (L i).map fun e => (e.1, (i, e.2))

theorem byCol_sum [AddCommMonoid R] (n : ℕ) (L : ℕ → List (ℕ × R)) {i : ℕ} (hi : i < n) (j : ℕ) :
    ((byCol n L).map fun e => if e.1 = j then (if e.2.1 = i then e.2.2 else 0) else 0).sum =
      ((L i).map fun e => if e.1 = j then e.2 else 0).sum := by
  unfold byCol concatRows
  rw [flatMap_range_sum, sum_eq_single i]
  · rw [List.map_map]; congr 1; refine List.map_congr_left fun e _ => ?_; simp
  · intro b _ hb
    rw [List.map_map]
    refine List.sum_eq_zero ?_
    intro x hx
    simp only [List.mem_map, Function.comp] at hx
    obtain ⟨e, _, rfl⟩ := hx
    simp [hb]
  · intro h; simp at h; omega
end csr

end Lis

namespace Lis
open Finset

/-- one row of a nested loop over the elements of `concatRows n L` -/
theorem Ok_rowLoop {β σ : Type} {lo hi i : ℕ} {L : ℕ → List β} {s : σ} {g : ℕ → σ → Option σ}
    (I : List β → σ → Prop) {Q : σ → Prop} (hlen : hi = lo + (L i).length) (h0 : I (concatRows i L) s)
    (hs : ∀ j (hj : j < (L i).length) s, I (concatRows i L ++ (L i).take j) s →
      Ok (g (lo + j) s) (I ((concatRows i L ++ (L i).take j) ++ [(L i)[j]])))
    (hq : ∀ s, I (concatRows (i + 1) L) s → Q s) : Ok (loop lo hi s g) Q := by
  subst hlen
  refine Ok_loop_le (fun k s => I (concatRows i L ++ (L i).take (k - lo)) s) (Nat.le_add_right _ _)
    (by simpa using h0) ?_ ?_
  · intro k s h1 h2 h
    have := hs (k - lo) (by omega) s h
    rw [← concatRows_take_snoc] at this
    rwa [show lo + (k - lo) = k by omega, show k - lo + 1 = k + 1 - lo by omega] at this
  · intro s h
    rw [concatRows_take_full _ _ (by omega)] at h
    exact hq s h

/-- outer loop over the rows -/
theorem Ok_rowsLoop {β σ : Type} {n : ℕ} {L : ℕ → List β} {s : σ} {f : ℕ → σ → Option σ}
    (I : List β → σ → Prop) {Q : σ → Prop} (h0 : I [] s)
    (hs : ∀ i s, i < n → I (concatRows i L) s → Ok (f i s) (I (concatRows (i + 1) L)))
    (hq : ∀ s, I (concatRows n L) s → Q s) : Ok (loop 0 n s f) Q :=
  Ok_loop_le (fun i s => I (concatRows i L) s) (Nat.zero_le _) h0 (fun i s _ hi h => hs i s hi h) hq

theorem byKey_len_snoc {α : Type} (c : ℕ) (L : List (ℕ × α)) (e : ℕ × α) :
    (byKey c (L ++ [e])).length = (byKey c L).length + if e.1 = c then 1 else 0 := by
  rw [byKey_append, List.length_append, byKey_single]; split <;> simp

/-- `iw[c]` counts the elements with key `c` seen so far (on top of `b`) -/
structure Counted {α : Type} (m : ℕ) (b : ℕ) (L : List (ℕ × α)) (iw : Arr ℕ) : Prop where
  sz : m + b ≤ iw.size
  cnt : ∀ c, c < m → iw.get (c + b) = (byKey c L).length

theorem Counted.step {α : Type} {m b : ℕ} {L : List (ℕ × α)} {iw : Arr ℕ} {e : ℕ × α}
    (h : Counted m b L iw) (he : e.1 < m) :
    e.1 + b < iw.size ∧ Counted m b (L ++ [e]) (iw.set (e.1 + b) (iw.get (e.1 + b) + 1)) := by
  have hs := h.sz
  refine ⟨by omega, by simpa using hs, fun c hc => ?_⟩
  rw [byKey_len_snoc, Arr.set_get, h.cnt e.1 he]
  by_cases hce : c = e.1
  · subst hce; simp
  · rw [if_neg (by omega), if_neg (fun hh => hce hh.symm), h.cnt c hc]; simp

/-- `ptr[i+1] = ptr[i] + iw[i]; iw[i] = ptr[i];` -/
theorem Ok_ptrLoop {α : Type} {m : ℕ} {ptr iw : Arr ℕ} {full : List (ℕ × α)}
    {f : ℕ → Arr ℕ × Arr ℕ → Option (Arr ℕ × Arr ℕ)} {Q : Arr ℕ × Arr ℕ → Prop}
    (h0 : ptr.get 0 = 0) (hc : Counted m 0 full iw)
    (hf : ∀ i (s : Arr ℕ × Arr ℕ), i < m → s.1.size = ptr.size → s.2.size = iw.size →
      Ok (f i s) fun s' => s' = (s.1.set (i + 1) (s.1.get i + s.2.get i), s.2.set i (s.1.get i)))
    (hq : ∀ p w : Arr ℕ, p.size = ptr.size → w.size = iw.size → p.get 0 = 0 → Segs m p.get full →
      (∀ c, c < m → w.get c = p.get c) → Q (p, w)) :
    Ok (loop 0 m (ptr, iw) f) Q := by
  refine Ok_loop_le (fun i (s : Arr ℕ × Arr ℕ) => s.1.size = ptr.size ∧ s.2.size = iw.size ∧
    s.1.get 0 = 0 ∧ Segs i s.1.get full ∧ (∀ c, c < i → s.2.get c = s.1.get c) ∧
    ∀ c, i ≤ c → s.2.get c = iw.get c) (Nat.zero_le _)
    ⟨rfl, rfl, h0, ⟨fun c hc => by omega⟩, fun c hc => by omega, fun _ _ => rfl⟩ ?_ ?_
  · rintro i s _ hi ⟨g1, g2, g3, g4, g5, g6⟩
    refine (hf i s hi g1 g2).mono ?_
    rintro _ rfl
    refine ⟨by simpa, by simpa, ?_, ⟨fun c hc' => ?_⟩, fun c hc' => ?_, fun c hc' => ?_⟩
    · rw [Arr.set_get_ne _ _ (by omega)]; exact g3
    · simp only [Arr.set_get]
      by_cases hci : c = i
      · subst hci
        rw [if_pos rfl, if_neg (by omega), g6 c le_rfl, ← hc.cnt c hi]; rfl
      · rw [if_neg (by omega), if_neg (by omega), g4.succ c (by omega)]
    · simp only [Arr.set_get]
      by_cases hci : c = i
      · subst hci; simp
      · rw [if_neg hci, if_neg (by omega)]; exact g5 c (by omega)
    · rw [Arr.set_get_ne _ _ (by omega)]; exact g6 c (by omega)
  · rintro ⟨p, w⟩ ⟨g1, g2, g3, g4, g5, _⟩
    exact hq p w g1 g2 g3 g4 g5

/-- one scatter step on arrays: `l = iw[k]; index[l] = …; value[l] = …; iw[k]++` -/
theorem Scat.put_arr {ρ R : Type} {m : ℕ} {p : ℕ → ℕ} {full L : List (ℕ × ρ × R)} {e : ℕ × ρ × R}
    {iw : Arr ℕ} {ix : Arr ρ} {vl : Arr R} (hs : Segs m p full)
    (h : Scat m p L iw.get fun q => (ix.get q, vl.get q)) (hpre : L ++ [e] <+: full) (he : e.1 < m) :
    Scat m p (L ++ [e]) (iw.set e.1 (iw.get e.1 + 1)).get
      fun q => ((ix.set (iw.get e.1) e.2.1).get q, (vl.set (iw.get e.1) e.2.2).get q) := by
  refine h.step hs hpre he (fun c => ?_) fun q => ?_
  · rw [Arr.set_get]
  · simp only [Arr.set_get]; split <;> rfl

end Lis
