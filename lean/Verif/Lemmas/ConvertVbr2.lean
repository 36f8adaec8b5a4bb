import Verif.Lemmas.ConvertVbr
import Verif.Lemmas.CsrOps

/-! Lemmas on the conversion CSR → VBR: partition lookup, counting. -/

namespace Lis
open Finset
variable {R : Type}

/-- `f` finds the part of a partition in which an index lies -/
def Finds (nc n : ℕ) (col : Arr ℕ) (f : ℕ → ℕ) : Prop :=
  ∀ c, c < n → f c < nc ∧ col.get (f c) ≤ c ∧ c < col.get (f c + 1)

theorem vbrP2b_spec {nc n : ℕ} {col p : Arr ℕ} (h : PtrWF nc n col) (hp : p.size = n) :
    Ok (vbrP2b nc col p) fun q => q.size = n ∧ Finds nc n col q.get := by
  have hs := h.size
  unfold vbrP2b
  refine Ok_loop_le (fun i (q : Arr ℕ) => q.size = n ∧ ∀ c, c < col.get i → q.get c < i ∧
    col.get (q.get c) ≤ c ∧ c < col.get (q.get c + 1)) (Nat.zero_le _) ⟨hp, by rw [h.zero]; simp⟩ ?_ ?_
  · rintro i q _ hi ⟨g1, g2⟩
    simp only [Ok_bind, Ok_rd]
    refine ⟨by omega, by omega, ?_⟩
    have hm := h.mono i hi
    have hn := h.le_nnz (i := i + 1) hi
    refine Ok_loop_le (fun j (q : Arr ℕ) => q.size = n ∧ ∀ c, c < j → q.get c < i + 1 ∧
      col.get (q.get c) ≤ c ∧ c < col.get (q.get c + 1)) hm
      ⟨g1, fun c hc => ⟨by have := (g2 c hc).1; omega, (g2 c hc).2⟩⟩ ?_ fun q hq => hq
    rintro j q hj1 hj2 ⟨g1, g2⟩
    rw [Ok_wr]
    refine ⟨by omega, by simpa, fun c hc => ?_⟩
    rw [Arr.set_get]
    split
    · next hcj => subst hcj; exact ⟨by omega, hj1, hj2⟩
    · exact g2 c (by omega)
  · rintro q ⟨g1, g2⟩
    rw [h.last] at g2
    exact ⟨g1, g2⟩

/-- replace columns by block columns -/
def tagBlk (f : ℕ → ℕ) (E : List (ℕ × ℕ × R)) : List (ℕ × ℕ × R) := E.map fun e => (e.1, f e.2.1, e.2.2)

/-- the block columns of a list of elements, in order of first occurrence -/
def vcols (f : ℕ → ℕ) (E : List (ℕ × ℕ × R)) : List ℕ := blkCols 1 (tagBlk f E)

theorem vcols_snoc (f : ℕ → ℕ) (E : List (ℕ × ℕ × R)) (e : ℕ × ℕ × R) :
    vcols f (E ++ [e]) = if f e.2.1 ∈ vcols f E then vcols f E else vcols f E ++ [f e.2.1] := by
  unfold vcols tagBlk
  rw [List.map_append]
  simp only [List.map_cons, List.map_nil, blkCols_snoc, Nat.div_one]

theorem vcols_mem (f : ℕ → ℕ) (E : List (ℕ × ℕ × R)) (c : ℕ) : c ∈ vcols f E ↔ ∃ e ∈ E, f e.2.1 = c := by
  unfold vcols tagBlk
  rw [blkCols_mem]
  constructor
  · rintro ⟨e, he, hc⟩
    obtain ⟨x, hx, rfl⟩ := List.mem_map.1 he
    exact ⟨x, hx, by simpa using hc⟩
  · rintro ⟨x, hx, hc⟩
    exact ⟨_, List.mem_map.2 ⟨x, hx, rfl⟩, by simpa using hc⟩

theorem vcols_nodup (f : ℕ → ℕ) (E : List (ℕ × ℕ × R)) : (vcols f E).Nodup := blkCols_nodup _ _

theorem vcols_prefix (f : ℕ → ℕ) {E F : List (ℕ × ℕ × R)} (h : E <+: F) : vcols f E <+: vcols f F :=
  blkCols_prefix 1 (h.map _)

/-- the elements of the `m` rows from row `s` on -/
def rowElems (A : Csr R) (s m : ℕ) : List (ℕ × ℕ × R) :=
  concatRows m fun ii => (A.rowList (s + ii)).map fun e => (ii, e)

theorem rowElems_mem {A : Csr R} {s m : ℕ} {e : ℕ × ℕ × R} :
    e ∈ rowElems A s m ↔ e.1 < m ∧ e.2 ∈ A.rowList (s + e.1) := by
  unfold rowElems
  rw [concatRows_mem]
  constructor
  · rintro ⟨ii, hii, he⟩
    simp only [List.mem_map] at he
    obtain ⟨x, hx, rfl⟩ := he
    exact ⟨hii, hx⟩
  · rintro ⟨h1, h3⟩
    exact ⟨e.1, h1, List.mem_map.2 ⟨e.2, h3, rfl⟩⟩

theorem Csr.rowList_lt {A : Csr R} (h : A.WF) {i : ℕ} (hi : i < A.n) : ∀ e ∈ A.rowList i, e.1 < A.np := by
  intro e he
  unfold Csr.rowList at he
  simp only [List.mem_map, List.mem_range] at he
  obtain ⟨q, hq, rfl⟩ := he
  exact h.idx _ (h.ptr.lt_nnz hi (by omega))

theorem vcols_lt {A : Csr R} (h : A.WF) {nc : ℕ} {col : Arr ℕ} {f : ℕ → ℕ} (hf : Finds nc A.np col f) {s m : ℕ} (hsm : s + m ≤ A.n)
    {E : List (ℕ × ℕ × R)} (hE : E <+: rowElems A s m) : ∀ x ∈ vcols f E, x < nc := by
  intro x hx
  obtain ⟨e, he, rfl⟩ := (vcols_mem _ _ _).1 hx
  obtain ⟨h1, h2⟩ := rowElems_mem.1 (hE.subset he)
  exact (hf _ (Csr.rowList_lt h (by omega) _ h2)).1

/-- a pass over the elements of `m` rows -/
theorem Ok_rowElems {A : Csr R} (h : A.WF) {σ : Type} {s0 m : ℕ} (hsm : s0 + m ≤ A.n) (I : List (ℕ × ℕ × R) → σ → Prop) {s : σ}
    {g : ℕ → ℕ → σ → Option σ} (h0 : I [] s)
    (hg : ∀ ii k E s, ii < m → A.ptr.get (s0 + ii) ≤ k → k < A.nnz → A.index.get k < A.np → I E s →
      (E ++ [(ii, A.index.get k, A.value.get k)]) <+: rowElems A s0 m →
      Ok (g ii k s) (I (E ++ [(ii, A.index.get k, A.value.get k)]))) :
    Ok (loop 0 m s fun ii s => do
      let a ← A.ptr.rd (s0 + ii)
      let b ← A.ptr.rd (s0 + ii + 1)
      loop a b s fun k s => g ii k s) (I (rowElems A s0 m)) := by
  have hps := h.ptr.size
  refine Ok_rowsLoop (L := fun ii => (A.rowList (s0 + ii)).map fun e => (ii, e)) I h0 ?_ fun s h => h
  intro ii s hii hs
  simp only [Ok_bind, Ok_rd]
  refine ⟨by omega, by omega, ?_⟩
  have hmono := h.ptr.mono (s0 + ii) (by omega)
  refine Ok_rowLoop (L := fun ii => (A.rowList (s0 + ii)).map fun e => (ii, e)) (i := ii) I
    (by simp only [List.length_map, Csr.rowList_length]; omega) hs ?_ fun s h => h
  intro j hj s hs
  have hpre := concatRows_take_prefix hii (fun ii => (A.rowList (s0 + ii)).map fun e => (ii, e)) hj
  simp only [List.getElem_map, Csr.rowList_get] at hpre ⊢
  simp only [List.length_map, Csr.rowList_length] at hj
  have hk := h.ptr.lt_nnz (i := s0 + ii) (k := A.ptr.get (s0 + ii) + j) (by omega) (by omega)
  exact hg ii (A.ptr.get (s0 + ii) + j) _ s hii (by omega) hk (h.idx _ hk) hs hpre

theorem vbrMark_spec {A : Csr R} (h : A.WF) {nc s0 m : ℕ} {col p2b iw iw2 : Arr ℕ} (hf : Finds nc A.np col p2b.get)
    (hp : A.np ≤ p2b.size) (hsm : s0 + m ≤ A.n) (h1 : iw.size = nc) (h2 : iw2.size = nc)
    (h0 : ∀ c, c < nc → iw.get c = 0) :
    Ok (vbrMark A p2b s0 m (iw, iw2, 0)) (Marked nc 1 (tagBlk p2b.get (rowElems A s0 m))) := by
  unfold vbrMark
  rw [show min m (A.n - s0) = m by omega]
  refine Ok_rowElems h hsm (fun E s => Marked nc 1 (tagBlk p2b.get E) s) ?_ ?_
  · exact ⟨h1, h2, by simp [blkCols, tagBlk], by simpa [blkCols, tagBlk] using h0,
      by simpa [blkCols, tagBlk] using Filled.nil _⟩
  · rintro ii k E ⟨iw, iw2, jj⟩ hii _ hk hx hs hpre
    have hisz := h.isz
    have hlt : ∀ x ∈ tagBlk p2b.get (E ++ [(ii, A.index.get k, A.value.get k)]), x.2.1 / 1 < nc := by
      intro x hx
      rw [Nat.div_one]
      refine vcols_lt h hf hsm hpre x.2.1 ?_
      rw [vcols_mem]
      simp only [tagBlk, List.mem_map] at hx
      obtain ⟨e, he, rfl⟩ := hx
      exact ⟨e, he, rfl⟩
    have e : tagBlk p2b.get (E ++ [(ii, A.index.get k, A.value.get k)]) =
        tagBlk p2b.get E ++ [(ii, p2b.get (A.index.get k), A.value.get k)] := by simp [tagBlk]
    rw [e] at hlt ⊢
    have hst := hs.step (ii, p2b.get (A.index.get k), A.value.get k) (hlt _ (by simp))
      (fun x hx => hlt x (by simp [hx]))
    simp only [Nat.div_one] at hst
    simp only [Ok_bind, Ok_rd] at hst ⊢
    exact ⟨by omega, by omega, hst⟩

/-- offset of the `p`-th block -/
def blkOff (g : ℕ → ℕ) (T : List ℕ) (p : ℕ) : ℕ := ((T.take p).map g).sum

theorem blkOff_zero (g : ℕ → ℕ) (T : List ℕ) : blkOff g T 0 = 0 := by simp [blkOff]

theorem blkOff_succ (g : ℕ → ℕ) {T : List ℕ} {p : ℕ} (hp : p < T.length) : blkOff g T (p + 1) = blkOff g T p + g T[p] := by
  unfold blkOff
  rw [← List.take_append_getElem hp, List.map_append, List.sum_append]
  simp

theorem blkOff_mono (g : ℕ → ℕ) (T : List ℕ) {p q : ℕ} (h : p ≤ q) : blkOff g T p ≤ blkOff g T q := by
  induction q, h using Nat.le_induction with
  | base => exact le_rfl
  | succ q _ ih =>
    by_cases hq : q < T.length
    · rw [blkOff_succ g hq]; omega
    · unfold blkOff at ih ⊢
      rw [List.take_of_length_le (by omega : T.length ≤ q + 1)]
      rw [List.take_of_length_le (by omega : T.length ≤ q)] at ih
      exact ih

theorem blkOff_length (g : ℕ → ℕ) (T : List ℕ) : blkOff g T T.length = (T.map g).sum := by simp [blkOff]

theorem blkOff_append (g : ℕ → ℕ) {T : List ℕ} (x : ℕ) {p : ℕ} (hp : p ≤ T.length) :
    blkOff g (T ++ [x]) p = blkOff g T p := by
  unfold blkOff; rw [List.take_append_of_le_length hp]

/-- the reset loop after marking, which also adds up the sizes of the blocks -/
theorem vbrReset_spec {nc i ht m : ℕ} {T : List ℕ} (hn : T.Nodup) (hT : ∀ x ∈ T, x < nc) {col iw iw2 count : Arr ℕ}
    (hcol : nc + 1 ≤ col.size)
    (h1 : iw.size = nc) (h2 : iw2.size = nc) (hiw : ∀ c, c < nc → iw.get c = if c ∈ T then 1 else 0)
    (h3 : Filled iw2.get T) (hi : i + 1 < m) (hc : count.size = m) (hc0 : count.get (i + 1) = 0) :
    Ok (loop 0 T.length ((0 : ℕ), iw, count) fun bj (r : ℕ × Arr ℕ × Arr ℕ) => do
      let ii ← iw2.rd bj
      let iw ← r.2.1.wr ii 0
      let c1 ← col.rd (ii + 1)
      let c0 ← col.rd ii
      let o ← r.2.2.rd (i + 1)
      let count ← r.2.2.wr (i + 1) (o + ht * (c1 - c0))
      pure (r.1 + 1, iw, count)) fun r => r.1 = T.length ∧ r.2.1.size = nc ∧ (∀ c, c < nc → r.2.1.get c = 0) ∧
        r.2.2.size = m ∧ (∀ k, k ≠ i + 1 → r.2.2.get k = count.get k) ∧
        r.2.2.get (i + 1) = (T.map fun c => ht * (col.get (c + 1) - col.get c)).sum := by
  have hle := nodup_length_le hn hT
  refine Ok_loop_le (fun k (r : ℕ × Arr ℕ × Arr ℕ) => r.1 = k ∧ r.2.1.size = nc ∧
    (∀ c, c < nc → r.2.1.get c = if c ∈ T.drop k then 1 else 0) ∧ r.2.2.size = m ∧
    (∀ k, k ≠ i + 1 → r.2.2.get k = count.get k) ∧
    r.2.2.get (i + 1) = blkOff (fun c => ht * (col.get (c + 1) - col.get c)) T k) (Nat.zero_le _)
    ⟨rfl, h1, by simpa using hiw, hc, fun _ _ => rfl, by simpa [blkOff] using hc0⟩ ?_ ?_
  · rintro k ⟨r, w, ct⟩ _ hk ⟨g1, g2, g3, g4, g5, g6⟩
    simp only at g1 g2 g3 g4 g5 g6
    have hkT := hT _ (List.getElem_mem hk)
    simp only [Ok_bind, Ok_rd, Ok_wr]
    rw [Ok_pure, h3 k hk]
    refine ⟨by omega, by omega, by omega, by omega, by omega, by omega, by simp only; omega, by simpa, fun c hc => ?_, by simpa,
      fun q hq => ?_, ?_⟩
    · have hd : T.drop k = T[k] :: T.drop (k + 1) := List.drop_eq_getElem_cons hk
      have hnd : (T.drop k).Nodup := hn.sublist (List.drop_sublist _ _)
      rw [hd, List.nodup_cons] at hnd
      rw [Arr.set_get]
      split
      · next hce => subst hce; rw [if_neg hnd.1]
      · next hce =>
        have : c ∈ T.drop k ↔ c ∈ T.drop (k + 1) := by rw [hd, List.mem_cons]; simp only [hce, false_or]
        rw [g3 c hc]; simp only [this]
    · simp only; rw [Arr.set_get_ne _ _ hq]; exact g5 q hq
    · simp only; rw [Arr.set_get_self, g6, blkOff_succ _ hk]
  · rintro ⟨r, w, ct⟩ ⟨g1, g2, g3, g4, g5, g6⟩
    refine ⟨g1, g2, fun c hc => ?_, g4, g5, ?_⟩
    · have := g3 c hc
      simpa using this
    · rw [← blkOff_length]; exact g6

/-- number of blocks of block row `b` -/
def vbrLen (A : Csr R) (row : Arr ℕ) (f : ℕ → ℕ) (b : ℕ) : ℕ :=
  (vcols f (rowElems A (row.get b) (row.get (b + 1) - row.get b))).length
/-- size of a block -/
def vbrG (row col : Arr ℕ) (b c : ℕ) : ℕ := (row.get (b + 1) - row.get b) * (col.get (c + 1) - col.get c)
/-- number of values of block row `b` -/
def vbrSize (A : Csr R) (row col : Arr ℕ) (f : ℕ → ℕ) (b : ℕ) : ℕ :=
  ((vcols f (rowElems A (row.get b) (row.get (b + 1) - row.get b))).map (vbrG row col b)).sum

theorem vbrCount_spec {A : Csr R} (h : A.WF) {nr nc : ℕ} {row col p2b : Arr ℕ} (hr : PtrWF nr A.n row)
    (hcol : PtrWF nc A.n col) (hnp : A.np = A.n)
    (hf : Finds nc A.n col p2b.get) (hp : p2b.size = A.n) (junk : ℕ → ℕ → ℕ) {bptr count : Arr ℕ} (hb : bptr.size = nr + 1)
    (hc : count.size = nr + 1) :
    Ok (vbrCount A nr nc row col p2b junk bptr count) fun s => s.1.size = nr + 1 ∧ s.2.size = nr + 1 ∧ s.2.get 0 = 0 ∧
      (∀ i, i < nr → s.1.get (i + 1) = vbrLen A row p2b.get i) ∧
      ∀ i, i < nr → s.2.get (i + 1) = vbrSize A row col p2b.get i := by
  have hrs := hr.size
  have hcs := hcol.size
  rw [← hnp] at hf hp
  unfold vbrCount
  simp only [Ok_bind]
  refine Ok_fillConst (by omega) fun ct hct hcz => ?_
  refine Ok_fillConst (by simp) fun iw hiw hiz => ?_
  refine Ok_loop_le (fun i (s : Arr ℕ × Arr ℕ × Arr ℕ × Arr ℕ) => s.1.size = nr + 1 ∧ s.2.1.size = nr + 1 ∧
    s.2.1.get 0 = 0 ∧ s.2.2.1.size = nc ∧ s.2.2.2.size = nc ∧ (∀ c, c < nc → s.2.2.1.get c = 0) ∧
    (∀ k, k < i → s.1.get (k + 1) = vbrLen A row p2b.get k) ∧
    (∀ k, k < i → s.2.1.get (k + 1) = vbrSize A row col p2b.get k) ∧
    ∀ k, i < k → k ≤ nr → s.2.1.get k = 0) (Nat.zero_le _)
    ⟨hb, by simp only; omega, hcz 0 (by omega), by simpa using hiw, rfl, hiz, by simp, by simp,
      fun k _ hk => hcz k (by omega)⟩ ?_ ?_
  · rintro i ⟨p, ct, iw, iw2⟩ _ hi ⟨g1, g2, g3, g4, g5, g6, g7, g8, g9⟩
    simp only at g1 g2 g3 g4 g5 g6 g7 g8 g9
    simp only [Ok_bind, Ok_rd]
    refine ⟨by omega, by omega, ?_⟩
    have hm := hr.mono i hi
    have hle := hr.le_nnz (i := i + 1) hi
    refine (vbrMark_spec h (s0 := row.get i) (m := row.get (i + 1) - row.get i) hf hp.ge (by omega) g4 g5 g6).mono ?_
    rintro ⟨iw', iw2', jj⟩ ⟨m1, m2, m3, m4, m5⟩
    simp only at m1 m2 m3 m4 m5
    subst m3
    refine (vbrReset_spec (i := i) (ht := row.get (i + 1) - row.get i) (m := nr + 1) (vcols_nodup _ _)
      (vcols_lt h hf (by omega) (List.prefix_refl _)) hcs m1 m2 m4 m5 (by omega) g2 (g9 (i + 1) (by omega) (by omega))).mono ?_
    rintro ⟨r, w, ct'⟩ ⟨r1, r2, r3, r4, r5, r6⟩
    simp only at r1 r2 r3 r4 r5 r6
    simp only [Ok_wr]
    rw [Ok_pure]
    refine ⟨by omega, by simpa, r4, by simp only; rw [r5 0 (by omega), g3], r2, m2, r3, fun k hk => ?_, fun k hk => ?_, fun k hk hk2 => ?_⟩
    · simp only
      rw [Arr.set_get]
      split
      · next h => rw [show k = i by omega, r1]; rfl
      · exact g7 k (by omega)
    · simp only
      by_cases hki : k = i
      · subst hki; rw [r6]; rfl
      · rw [r5 _ (by omega)]; exact g8 k (by omega)
    · simp only
      rw [r5 _ (by omega)]; exact g9 k (by omega) hk2
  · rintro ⟨p, ct, iw, iw2⟩ ⟨g1, g2, g3, -, -, -, g7, g8, -⟩
    rw [Ok_pure]
    exact ⟨g1, g2, g3, g7, g8⟩

end Lis
