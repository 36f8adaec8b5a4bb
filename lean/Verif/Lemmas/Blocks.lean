import Verif.Model.Blocks
import Verif.Lemmas.Assembly3

/-! Correctness of the block conversion. -/

namespace Lis
open Finset
variable {R : Type}

/-- block columns of a list of (line offset, column, value), in order of first occurrence -/
def blkCols (bmin : ℕ) (E : List (ℕ × ℕ × R)) : List ℕ :=
  E.foldl (fun S e => if e.2.1 / bmin ∈ S then S else S ++ [e.2.1 / bmin]) []

theorem blkCols_snoc (bmin : ℕ) (E : List (ℕ × ℕ × R)) (e : ℕ × ℕ × R) :
    blkCols bmin (E ++ [e]) = if e.2.1 / bmin ∈ blkCols bmin E then blkCols bmin E
      else blkCols bmin E ++ [e.2.1 / bmin] := by
  unfold blkCols; rw [List.foldl_append]; rfl

theorem blkCols_mem (bmin : ℕ) (E : List (ℕ × ℕ × R)) (c : ℕ) :
    c ∈ blkCols bmin E ↔ ∃ e ∈ E, e.2.1 / bmin = c := by
  induction E using List.reverseRecOn with
  | nil => simp [blkCols]
  | append_singleton E e ih =>
    rw [blkCols_snoc]
    split
    · next h =>
      rw [ih]
      constructor
      · rintro ⟨x, hx, hc⟩; exact ⟨x, by simp [hx], hc⟩
      · rintro ⟨x, hx, hc⟩
        simp only [List.mem_append, List.mem_singleton] at hx
        rcases hx with hx | rfl
        · exact ⟨x, hx, hc⟩
        · rw [hc] at h; exact ih.1 h
    · simp only [List.mem_append, List.mem_singleton, ih]
      constructor
      · rintro (⟨x, hx, hc⟩ | rfl)
        · exact ⟨x, Or.inl hx, hc⟩
        · exact ⟨e, Or.inr rfl, rfl⟩
      · rintro ⟨x, hx | rfl, hc⟩
        · exact Or.inl ⟨x, hx, hc⟩
        · exact Or.inr hc.symm

theorem blkCols_nodup (bmin : ℕ) (E : List (ℕ × ℕ × R)) : (blkCols bmin E).Nodup := by
  induction E using List.reverseRecOn with
  | nil => simp [blkCols]
  | append_singleton E e ih =>
    rw [blkCols_snoc]
    split
    · exact ih
    · next h => exact List.Nodup.append ih (by simp) (by simpa using h)

theorem blkCols_prefix (bmin : ℕ) {E F : List (ℕ × ℕ × R)} (h : E <+: F) :
    blkCols bmin E <+: blkCols bmin F := by
  obtain ⟨t, rfl⟩ := h
  induction t using List.reverseRecOn with
  | nil => simp
  | append_singleton t e ih =>
    rw [← List.append_assoc, blkCols_snoc]
    split
    · exact ih
    · exact ih.trans (List.prefix_append _ _)

theorem nodup_length_le {l : List ℕ} {m : ℕ} (hn : l.Nodup) (hl : ∀ x ∈ l, x < m) : l.length ≤ m := by
  have := (List.subperm_of_subset hn (l₂ := List.range m) fun x hx => by simpa using hl x hx).length_le
  simpa using this

/-- the last value given to position `(ii, c)` -/
def lastVal [Zero R] (E : List (ℕ × ℕ × R)) (ii c : ℕ) : R :=
  E.foldl (fun a e => if e.1 = ii ∧ e.2.1 = c then e.2.2 else a) 0

theorem lastVal_snoc [Zero R] (E : List (ℕ × ℕ × R)) (e : ℕ × ℕ × R) (ii c : ℕ) :
    lastVal (E ++ [e]) ii c = if e.1 = ii ∧ e.2.1 = c then e.2.2 else lastVal E ii c := by
  simp [lastVal, List.foldl_append]

theorem lastVal_zero [Zero R] {E : List (ℕ × ℕ × R)} {ii c : ℕ} (h : ∀ e ∈ E, ¬ (e.1 = ii ∧ e.2.1 = c)) :
    lastVal E ii c = 0 := by
  induction E using List.reverseRecOn with
  | nil => rfl
  | append_singleton E e ih =>
    rw [lastVal_snoc, if_neg (h e (by simp)), ih fun x hx => h x (by simp [hx])]

/-- without duplicates the last value is the sum -/
theorem lastVal_sum [AddCommMonoid R] {E : List (ℕ × ℕ × R)} (h : (E.map fun e => (e.1, e.2.1)).Nodup)
    (ii c : ℕ) :
    lastVal E ii c = (E.map fun e => if e.1 = ii ∧ e.2.1 = c then e.2.2 else 0).sum := by
  induction E using List.reverseRecOn with
  | nil => rfl
  | append_singleton E e ih =>
    rw [List.map_append, List.nodup_append] at h
    rw [lastVal_snoc, List.map_append, List.sum_append]
    simp only [List.map_cons, List.map_nil, List.sum_cons, List.sum_nil, add_zero]
    rw [← ih h.1]
    split
    · next hc =>
      rw [lastVal_zero, zero_add]
      intro x hx hxc
      refine h.2.2 (ii, c) ?_ (ii, c) ?_ rfl
      · exact List.mem_map.2 ⟨x, hx, by rw [← hxc.1, ← hxc.2]⟩
      · simp [← hc.1, ← hc.2]
    · rw [add_zero]

/-- the input lines are the lists `L` -/
structure Lines.Rep (S : Lines R) (n : ℕ) (L : ℕ → List (ℕ × R)) : Prop where
  rows : ∀ i, i < n → ∃ a, S.lo i = some a ∧ S.hi i = some (a + (L i).length) ∧
    ∀ j (hj : j < (L i).length), S.col i (a + j) = some (L i)[j].1 ∧ S.val i (a + j) = some (L i)[j].2

/-- the elements of block line `bi` -/
def blkElems (n bmaj : ℕ) (L : ℕ → List (ℕ × R)) (bi : ℕ) : List (ℕ × ℕ × R) :=
  concatRows (min bmaj (n - bi * bmaj)) fun ii => (L (bi * bmaj + ii)).map fun e => (ii, e)

theorem blkElems_mem {n bmaj : ℕ} {L : ℕ → List (ℕ × R)} {bi : ℕ} {e : ℕ × ℕ × R} :
    e ∈ blkElems n bmaj L bi ↔ e.1 < bmaj ∧ bi * bmaj + e.1 < n ∧ e.2 ∈ L (bi * bmaj + e.1) := by
  unfold blkElems
  rw [concatRows_mem]
  constructor
  · rintro ⟨ii, hii, he⟩
    simp only [List.mem_map] at he
    obtain ⟨x, hx, rfl⟩ := he
    exact ⟨by simp; omega, by simp; omega, hx⟩
  · rintro ⟨h1, h2, h3⟩
    exact ⟨e.1, by omega, List.mem_map.2 ⟨e.2, h3, rfl⟩⟩

/-- marking invariant -/
structure Marked (nmin bmin : ℕ) (E : List (ℕ × ℕ × R)) (s : Arr ℕ × Arr ℕ × ℕ) : Prop where
  sz1 : s.1.size = nmin
  sz2 : s.2.1.size = nmin
  cnt : s.2.2 = (blkCols bmin E).length
  iw : ∀ c, c < nmin → s.1.get c = if c ∈ blkCols bmin E then 1 else 0
  iw2 : Filled s.2.1.get (blkCols bmin E)

theorem Marked.step {nmin bmin : ℕ} {E : List (ℕ × ℕ × R)} {iw iw2 : Arr ℕ} {jj : ℕ}
    (h : Marked nmin bmin E (iw, iw2, jj)) (e : ℕ × ℕ × R) (he : e.2.1 / bmin < nmin)
    (hE : ∀ x ∈ E, x.2.1 / bmin < nmin) :
    Ok (do
      let jpos ← iw.rd (e.2.1 / bmin)
      if jpos = 0 then do
        let iw ← iw.wr (e.2.1 / bmin) 1
        let iw2 ← iw2.wr jj (e.2.1 / bmin)
        pure (iw, iw2, jj + 1)
      else pure (iw, iw2, jj) : Option (Arr ℕ × Arr ℕ × ℕ)) (Marked nmin bmin (E ++ [e])) := by
  obtain ⟨h1, h2, h3, h4, h5⟩ := h
  simp only at h1 h2 h3 h4 h5
  simp only [Ok_bind, Ok_rd]
  refine ⟨by omega, ?_⟩
  rw [h4 _ he]
  by_cases hm : e.2.1 / bmin ∈ blkCols bmin E
  · rw [if_pos hm, if_neg (by simp), Ok_pure]
    have : blkCols bmin (E ++ [e]) = blkCols bmin E := by rw [blkCols_snoc, if_pos hm]
    exact ⟨h1, h2, by rw [this]; exact h3, by rw [this]; exact h4, by rw [this]; exact h5⟩
  · rw [if_neg hm, if_pos rfl]
    have hc : blkCols bmin (E ++ [e]) = blkCols bmin E ++ [e.2.1 / bmin] := by rw [blkCols_snoc, if_neg hm]
    have hlen : (blkCols bmin (E ++ [e])).length ≤ nmin := by
      refine nodup_length_le (blkCols_nodup _ _) fun x hx => ?_
      obtain ⟨y, hy, rfl⟩ := (blkCols_mem _ _ _).1 hx
      simp only [List.mem_append, List.mem_singleton] at hy
      rcases hy with hy | rfl
      · exact hE y hy
      · exact he
    rw [hc] at hlen
    simp only [List.length_append, List.length_singleton] at hlen
    simp only [Ok_bind, Ok_wr, Ok_pure]
    refine ⟨by omega, by omega, by simpa, by simpa, by rw [hc]; simp [h3], fun c hcm => ?_, ?_⟩
    · rw [hc]
      simp only [Arr.set_get, List.mem_append, List.mem_singleton]
      by_cases hce : c = e.2.1 / bmin
      · simp [hce]
      · rw [if_neg hce, h4 c hcm]; simp [hce]
    · rw [hc]
      refine h5.snoc fun q => ?_
      rw [Arr.set_get, h3]

theorem blkElems_prefix_mem {n bmaj m : ℕ} {L : ℕ → List (ℕ × R)} {bi : ℕ} {E : List (ℕ × ℕ × R)}
    (hE : E <+: blkElems n bmaj L bi)
    (hcol : ∀ i, i < n → ∀ e ∈ L i, e.1 < m) : ∀ x ∈ E, x.2.1 < m := by
  intro x hx
  obtain ⟨h1, h2, h3⟩ := blkElems_mem.1 (hE.subset hx)
  exact hcol _ h2 _ h3

theorem blkMark_spec {S : Lines R} {n bmaj bmin nmin bi m : ℕ} {L : ℕ → List (ℕ × R)}
    (hS : S.Rep n L) (hm : ∀ c, c < m → c / bmin < nmin) (hcol : ∀ i, i < n → ∀ e ∈ L i, e.1 < m)
    {iw iw2 : Arr ℕ} (h1 : iw.size = nmin) (h2 : iw2.size = nmin) (h0 : ∀ c, c < nmin → iw.get c = 0) (jj : ℕ) :
    Ok (blkMark S n bmaj bmin bi (iw, iw2, jj)) (Marked nmin bmin (blkElems n bmaj L bi)) := by
  unfold blkMark
  simp only
  rw [Nat.mul_comm bmaj bi]
  have hall : ∀ (E : List (ℕ × ℕ × R)), E <+: blkElems n bmaj L bi → ∀ x ∈ E, x.2.1 / bmin < nmin :=
    fun E hE x hx => hm _ (blkElems_prefix_mem hE hcol x hx)
  refine Ok_rowsLoop (L := fun ii => (L (bi * bmaj + ii)).map fun e => (ii, e))
    (fun E s => Marked nmin bmin E s) ⟨h1, h2, by simp [blkCols], by simpa [blkCols] using h0,
      by simpa [blkCols] using Filled.nil _⟩ ?_ fun s h => h
  intro ii s hii hs
  obtain ⟨a, ha, hb, hel⟩ := hS.rows (bi * bmaj + ii) (by omega)
  rw [ha, hb]
  simp only [Ok_bind, Ok_some]
  refine Ok_rowLoop (L := fun ii => (L (bi * bmaj + ii)).map fun e => (ii, e)) (i := ii)
    (fun E s => Marked nmin bmin E s) (by simp) hs ?_ fun s h => h
  rintro j hj ⟨iw, iw2, jj⟩ hs
  simp only [List.length_map] at hj
  obtain ⟨hc, _⟩ := hel j hj
  rw [hc]
  simp only [Ok_bind, Ok_some]
  have hpre := concatRows_take_prefix hii (fun ii => (L (bi * bmaj + ii)).map fun e => (ii, e)) (k := j)
    (by simpa using hj)
  have hA := hall _ hpre
  have hst := hs.step ((ii, (L (bi * bmaj + ii))[j])) (hA _ (by simp)) (fun x hx => hA x (by
    rw [List.mem_append]; exact Or.inl hx))
  simpa [List.getElem_map] using hst


/-- the reset loop after marking -/
theorem blkReset_spec {nmin : ℕ} {T : List ℕ} (hn : T.Nodup) (hT : ∀ x ∈ T, x < nmin) {iw iw2 : Arr ℕ}
    (h1 : iw.size = nmin) (h2 : iw2.size = nmin) (hiw : ∀ c, c < nmin → iw.get c = if c ∈ T then 1 else 0)
    (h3 : Filled iw2.get T) :
    Ok (loop 0 T.length ((0 : ℕ), iw) fun bj (r : ℕ × Arr ℕ) => do
      let ii ← iw2.rd bj
      let iw ← r.2.wr ii 0
      pure (r.1 + 1, iw)) fun r => r.1 = T.length ∧ r.2.size = nmin ∧ ∀ c, c < nmin → r.2.get c = 0 := by
  have hle := nodup_length_le hn hT
  refine Ok_loop_le (fun k (r : ℕ × Arr ℕ) => r.1 = k ∧ r.2.size = nmin ∧
    ∀ c, c < nmin → r.2.get c = if c ∈ T.drop k then 1 else 0) (Nat.zero_le _)
    ⟨rfl, h1, by simpa using hiw⟩ ?_ ?_
  · rintro k ⟨r, w⟩ _ hk ⟨g1, g2, g3⟩
    simp only at g1 g2 g3
    have hkT := hT _ (List.getElem_mem hk)
    simp only [Ok_bind, Ok_rd, Ok_wr, Ok_pure]
    rw [h3 k hk]
    refine ⟨by omega, by omega, by omega, by simpa, fun c hc => ?_⟩
    have hd : T.drop k = T[k] :: T.drop (k + 1) := List.drop_eq_getElem_cons hk
    have hnd : (T.drop k).Nodup := hn.sublist (List.drop_sublist _ _)
    rw [hd, List.nodup_cons] at hnd
    rw [Arr.set_get]
    split
    · next hce => subst hce; rw [if_neg hnd.1]
    · next hce =>
      have : c ∈ T.drop k ↔ c ∈ T.drop (k + 1) := by rw [hd, List.mem_cons]; simp only [hce, false_or]
      rw [g3 c hc]; simp only [this]
  · rintro ⟨r, w⟩ ⟨g1, g2, g3⟩
    refine ⟨g1, g2, fun c hc => ?_⟩
    have := g3 c hc
    simpa using this

theorem blkCount_spec {S : Lines R} {n bmaj bmin nb nmin m : ℕ} {L : ℕ → List (ℕ × R)}
    (hS : S.Rep n L) (hm : ∀ c, c < m → c / bmin < nmin) (hcol : ∀ i, i < n → ∀ e ∈ L i, e.1 < m)
    (junk : ℕ → ℕ → ℕ) {bptr : Arr ℕ} (hb : bptr.size = nb + 1) :
    Ok (blkCount S n bmaj bmin nb nmin junk bptr) fun p => p.size = nb + 1 ∧
      ∀ i, i < nb → p.get (i + 1) = (blkCols bmin (blkElems n bmaj L i)).length := by
  unfold blkCount
  simp only [Ok_bind, Ok_pure]
  refine Ok_fillConst (by simp) fun iw hiw hiz => ?_
  refine Ok_loop_le (fun i (s : Arr ℕ × Arr ℕ × Arr ℕ) => s.1.size = nb + 1 ∧
    (∀ k, k < i → s.1.get (k + 1) = (blkCols bmin (blkElems n bmaj L k)).length) ∧
    s.2.1.size = nmin ∧ s.2.2.size = nmin ∧ ∀ c, c < nmin → s.2.1.get c = 0) (Nat.zero_le _)
    ⟨hb, by simp, by simpa using hiw, rfl, hiz⟩ ?_ ?_
  · rintro i ⟨p, iw, iw2⟩ _ hi ⟨g1, g2, g3, g4, g5⟩
    simp only at g1 g2 g3 g4 g5
    rw [Ok_bind]
    refine (blkMark_spec hS hm hcol g3 g4 g5 0).mono ?_
    rintro ⟨iw', iw2', jj⟩ ⟨m1, m2, m3, m4, m5⟩
    simp only at m1 m2 m3 m4 m5
    subst m3
    rw [Ok_bind]
    refine (blkReset_spec (blkCols_nodup _ _) (fun x hx => ?_) m1 m2 m4 m5).mono ?_
    · obtain ⟨y, hy, rfl⟩ := (blkCols_mem _ _ _).1 hx
      exact hm _ (blkElems_prefix_mem (List.prefix_refl _) hcol y hy)
    rintro ⟨r, w⟩ ⟨r1, r2, r3⟩
    simp only at r1 r2 r3
    simp only [Ok_bind, Ok_wr, Ok_pure]
    refine ⟨by omega, by simpa, fun k hk => ?_, r2, m2, r3⟩
    rw [Arr.set_get]
    split
    · next h => rw [show k = i by omega, r1]
    · exact g2 k (by omega)
  · rintro ⟨p, iw, iw2⟩ ⟨g1, g2, _⟩
    exact ⟨g1, g2⟩

/-- filling invariant within a block line that starts at block `base` -/
structure Put [Zero R] (nmin bmaj bmin bnnz base : ℕ) (pos : ℕ → ℕ → ℕ) (bindex0 : Arr ℕ) (value0 : Arr R)
    (E : List (ℕ × ℕ × R)) (s : ℕ × Arr ℕ × Arr ℕ × Arr R) : Prop where
  kk : s.1 = base + (blkCols bmin E).length
  sz1 : s.2.1.size = nmin
  sz2 : s.2.2.1.size = bnnz
  sz3 : s.2.2.2.size = bnnz * (bmaj * bmin)
  iw0 : ∀ c, c < nmin → c ∉ blkCols bmin E → s.2.1.get c = 0
  iw1 : ∀ p (hp : p < (blkCols bmin E).length),
    s.2.1.get (blkCols bmin E)[p] = (base + p) * (bmaj * bmin) + 1
  ix : ∀ p (hp : p < (blkCols bmin E).length), s.2.2.1.get (base + p) = (blkCols bmin E)[p]
  ixo : ∀ q, q < base → s.2.2.1.get q = bindex0.get q
  vl : ∀ p (hp : p < (blkCols bmin E).length), ∀ ii j, ii < bmaj → j < bmin →
    s.2.2.2.get ((base + p) * (bmaj * bmin) + pos ii j) = lastVal E ii ((blkCols bmin E)[p] * bmin + j)
  vlo : ∀ q, q < base * (bmaj * bmin) → s.2.2.2.get q = value0.get q

/-- positions inside a block -/
structure PosOk (bmaj bmin : ℕ) (pos : ℕ → ℕ → ℕ) : Prop where
  lt : ∀ ii j, ii < bmaj → j < bmin → pos ii j < bmaj * bmin
  inj : ∀ ii j ii' j', ii < bmaj → j < bmin → ii' < bmaj → j' < bmin → pos ii j = pos ii' j' →
    ii = ii' ∧ j = j'

theorem block_disj {p q bs x y : ℕ} (hx : x < bs) (hy : y < bs) (h : p * bs + x = q * bs + y) :
    p = q ∧ x = y := by
  have hb : 0 < bs := by omega
  have h1 := congrArg (· / bs) h
  simp only [Nat.mul_comm _ bs, Nat.mul_add_div hb, Nat.div_eq_of_lt hx, Nat.div_eq_of_lt hy] at h1
  have h2 := congrArg (· % bs) h
  simp only [Nat.mul_comm _ bs, Nat.mul_add_mod, Nat.mod_eq_of_lt hx, Nat.mod_eq_of_lt hy] at h2
  exact ⟨by omega, h2⟩

theorem div_mul_add_mod_iff {b c e j : ℕ} (hb : 0 < b) (hj : j < b) :
    e = c * b + j ↔ e / b = c ∧ e % b = j := by
  constructor
  · rintro rfl
    refine ⟨?_, ?_⟩
    · rw [Nat.mul_comm, Nat.mul_add_div hb, Nat.div_eq_of_lt hj, Nat.add_zero]
    · rw [Nat.mul_comm, Nat.mul_add_mod, Nat.mod_eq_of_lt hj]
  · rintro ⟨rfl, rfl⟩
    have := Nat.div_add_mod e b
    rw [Nat.mul_comm] at this; omega

theorem Put.step [Zero R] {nmin bmaj bmin bnnz base : ℕ} {pos : ℕ → ℕ → ℕ} {bindex0 : Arr ℕ} {value0 : Arr R}
    {E : List (ℕ × ℕ × R)} {kk : ℕ} {iw bindex : Arr ℕ} {value : Arr R} (hpos : PosOk bmaj bmin pos)
    (hbm : 0 < bmin) (h : Put nmin bmaj bmin bnnz base pos bindex0 value0 E (kk, iw, bindex, value))
    (ii c : ℕ) (v : R) (hii : ii < bmaj) (hc : c / bmin < nmin)
    (hroom : base + (blkCols bmin (E ++ [(ii, c, v)])).length ≤ bnnz) :
    Ok (do
      let jpos ← iw.rd (c / bmin)
      if jpos = 0 then do
        let kv := kk * (bmaj * bmin)
        let iw ← iw.wr (c / bmin) (kv + 1)
        let bindex ← bindex.wr kk (c / bmin)
        let value ← loop 0 (bmaj * bmin) value fun jj (v : Arr R) => v.wr (kv + jj) 0
        let value ← value.wr (kv + pos ii (c % bmin)) v
        pure (kk + 1, iw, bindex, value)
      else do
        let value ← value.wr (jpos + pos ii (c % bmin) - 1) v
        pure (kk, iw, bindex, value) : Option (ℕ × Arr ℕ × Arr ℕ × Arr R))
      (Put nmin bmaj bmin bnnz base pos bindex0 value0 (E ++ [(ii, c, v)])) := by
  obtain ⟨h1, h2, h3, h4, h5, h6, h7, h8, h9, h10⟩ := h
  simp only at h1 h2 h3 h4 h5 h6 h7 h8 h9 h10
  have hjr : c % bmin < bmin := Nat.mod_lt _ hbm
  have hpl := hpos.lt ii (c % bmin) hii hjr
  simp only [Ok_bind, Ok_rd]
  refine ⟨by omega, ?_⟩
  by_cases hm : c / bmin ∈ blkCols bmin E
  · have hcols : blkCols bmin (E ++ [(ii, c, v)]) = blkCols bmin E := by rw [blkCols_snoc, if_pos hm]
    rw [hcols] at hroom
    obtain ⟨p, hp, hpe⟩ := List.getElem_of_mem hm
    have hjp := h6 p hp
    rw [hpe] at hjp
    rw [hjp, if_neg (by omega)]
    simp only [Ok_bind, Ok_wr, Ok_pure]
    rw [show (base + p) * (bmaj * bmin) + 1 + pos ii (c % bmin) - 1 =
      (base + p) * (bmaj * bmin) + pos ii (c % bmin) by omega]
    have hlt := flat_lt (i := base + p) (n := bnnz) (by omega) hpl
    refine ⟨by omega, by rw [hcols]; exact h1, h2, h3, by simpa using h4, by rw [hcols]; exact h5,
      by simpa only [hcols] using h6, by simpa only [hcols] using h7, h8, ?_, fun q hq => ?_⟩
    · intro p' hp' ii' j' hii' hj'
      simp only [hcols] at hp' ⊢
      rw [lastVal_snoc, Arr.set_get]
      have hiff : (base + p') * (bmaj * bmin) + pos ii' j' = (base + p) * (bmaj * bmin) + pos ii (c % bmin) ↔
          (ii = ii' ∧ c = (blkCols bmin E)[p'] * bmin + j') := by
        rw [div_mul_add_mod_iff hbm hj']
        constructor
        · intro hh
          obtain ⟨e1, e2⟩ := block_disj (hpos.lt _ _ hii' hj') hpl hh
          obtain ⟨e3, e4⟩ := hpos.inj _ _ _ _ hii' hj' hii hjr e2
          have : p' = p := by omega
          subst this
          exact ⟨e3.symm, hpe.symm, e4.symm⟩
        · rintro ⟨rfl, e1, rfl⟩
          have : p = p' := (List.Nodup.getElem_inj_iff (blkCols_nodup bmin E)).1 (hpe.trans e1)
          subst this; rfl
      by_cases hh : ii = ii' ∧ c = (blkCols bmin E)[p'] * bmin + j'
      · rw [if_pos hh, if_pos (hiff.2 hh)]
      · rw [if_neg hh, if_neg (fun x => hh (hiff.1 x)), h9 p' hp' ii' j' hii' hj']
    · have h0 : base * (bmaj * bmin) ≤ (base + p) * (bmaj * bmin) := Nat.mul_le_mul_right _ (by omega)
      rw [Arr.set_get_ne _ _ (by omega)]
      exact h10 q hq
  · have hcols : blkCols bmin (E ++ [(ii, c, v)]) = blkCols bmin E ++ [c / bmin] := by
      rw [blkCols_snoc, if_neg hm]
    rw [hcols] at hroom
    simp only [List.length_append, List.length_singleton] at hroom
    rw [h5 _ hc hm, if_pos rfl]
    simp only [Ok_bind, Ok_wr, Ok_pure]
    refine ⟨by omega, by omega, ?_⟩
    have hkb : kk * (bmaj * bmin) + bmaj * bmin ≤ bnnz * (bmaj * bmin) := by
      have := Nat.mul_le_mul_right (bmaj * bmin) (show kk + 1 ≤ bnnz by omega)
      rwa [Nat.add_mul, Nat.one_mul] at this
    refine Ok_loop_le (fun k (w : Arr R) => w.size = bnnz * (bmaj * bmin) ∧
      (∀ q, q < kk * (bmaj * bmin) → w.get q = value.get q) ∧
      ∀ q, q < k → w.get (kk * (bmaj * bmin) + q) = 0) (Nat.zero_le _) ⟨h4, fun _ _ => rfl, by simp⟩ ?_ ?_
    · rintro k w _ hk ⟨w1, w2, w3⟩
      simp only [Ok_wr]
      refine ⟨by omega, by simpa, fun q hq => ?_, fun q hq => ?_⟩
      · rw [Arr.set_get_ne _ _ (by omega)]; exact w2 q hq
      · rw [Arr.set_get]
        split
        · rfl
        · exact w3 q (by omega)
    rintro w ⟨w1, w2, w3⟩
    refine ⟨by omega, ?_⟩
    have hnl : ∀ p (hp : p < (blkCols bmin E).length), (blkCols bmin E)[p] ≠ c / bmin := fun p hp he =>
      hm (he ▸ List.getElem_mem hp)
    have hl1 : (blkCols bmin (E ++ [(ii, c, v)])).length = (blkCols bmin E).length + 1 := by
      rw [hcols]; simp
    refine ⟨by rw [hl1]; simp only; omega, by simpa using h2, by simpa using h3, by simpa using w1, fun x hx hxm => ?_,
      fun p hp => ?_, fun p hp => ?_, fun q hq => ?_, fun p hp ii' j' hii' hj' => ?_, fun q hq => ?_⟩
    · rw [hcols] at hxm
      simp only [List.mem_append, List.mem_singleton, not_or] at hxm
      rw [Arr.set_get_ne _ _ hxm.2]
      exact h5 x hx hxm.1
    · simp only [hcols] at hp ⊢
      simp only [List.length_append, List.length_singleton] at hp
      by_cases hpl' : p = (blkCols bmin E).length
      · subst hpl'
        simp [h1]
      · rw [List.getElem_append_left (by omega), Arr.set_get_ne _ _ (hnl p (by omega))]
        exact h6 p (by omega)
    · simp only [hcols] at hp ⊢
      simp only [List.length_append, List.length_singleton] at hp
      by_cases hpl' : p = (blkCols bmin E).length
      · subst hpl'
        simp [h1]
      · rw [List.getElem_append_left (by omega), Arr.set_get_ne _ _ (by omega)]
        exact h7 p (by omega)
    · rw [Arr.set_get_ne _ _ (by omega)]; exact h8 q hq
    · simp only [hcols] at hp ⊢
      simp only [List.length_append, List.length_singleton] at hp
      rw [lastVal_snoc, Arr.set_get]
      have hpl2 := hpos.lt ii' j' hii' hj'
      by_cases hpl' : p = (blkCols bmin E).length
      · subst hpl'
        rw [h1]
        simp only [List.getElem_append_right (Nat.le_refl _), Nat.sub_self, List.getElem_cons_zero]
        by_cases hh : ii = ii' ∧ c = c / bmin * bmin + j'
        · have := (div_mul_add_mod_iff hbm hj').1 hh.2
          rw [if_pos hh, if_pos (by rw [hh.1, this.2])]
        · rw [if_neg hh, if_neg]
          · rw [← h1, w3 _ hpl2, lastVal_zero]
            rintro e he ⟨_, e2⟩
            apply hm
            rw [blkCols_mem]
            exact ⟨e, he, ((div_mul_add_mod_iff hbm hj').1 e2).1⟩
          · intro hx
            obtain ⟨_, e2⟩ := block_disj hpl2 hpl hx
            obtain ⟨e3, e4⟩ := hpos.inj _ _ _ _ hii' hj' hii hjr e2
            exact hh ⟨e3.symm, (div_mul_add_mod_iff hbm hj').2 ⟨rfl, e4.symm⟩⟩
      · have hlt := flat_lt (i := base + p) (n := kk) (by omega) hpl2
        rw [List.getElem_append_left (by omega), if_neg (by omega), if_neg, w2 _ hlt,
          h9 p (by omega) ii' j' hii' hj']
        rintro ⟨_, e2⟩
        exact hnl p (by omega) ((div_mul_add_mod_iff hbm hj').1 e2).1.symm
    · have : base * (bmaj * bmin) ≤ kk * (bmaj * bmin) := Nat.mul_le_mul_right _ (by omega)
      rw [Arr.set_get_ne _ _ (by omega), w2 q (by omega)]
      exact h10 q hq


theorem blkPut_spec [Zero R] {S : Lines R} {n bmaj bmin nmin bi m bnnz base : ℕ} {L : ℕ → List (ℕ × R)}
    {pos : ℕ → ℕ → ℕ} (hpos : PosOk bmaj bmin pos) (hbm : 0 < bmin)
    (hS : S.Rep n L) (hm : ∀ c, c < m → c / bmin < nmin) (hcol : ∀ i, i < n → ∀ e ∈ L i, e.1 < m)
    {iw bindex : Arr ℕ} {value : Arr R} (h1 : iw.size = nmin) (h2 : bindex.size = bnnz)
    (h3 : value.size = bnnz * (bmaj * bmin)) (h0 : ∀ c, c < nmin → iw.get c = 0)
    (hroom : base + (blkCols bmin (blkElems n bmaj L bi)).length ≤ bnnz) :
    Ok (blkPut S pos n bmaj bmin bi (base, iw, bindex, value))
      (Put nmin bmaj bmin bnnz base pos bindex value (blkElems n bmaj L bi)) := by
  unfold blkPut
  simp only
  refine Ok_rowsLoop (L := fun ii => (L (bi * bmaj + ii)).map fun e => (ii, e))
    (fun E s => Put nmin bmaj bmin bnnz base pos bindex value E s)
    ⟨by simp [blkCols], h1, h2, h3, fun c hc _ => h0 c hc, by simp [blkCols], by simp [blkCols],
      fun _ _ => rfl, by simp [blkCols], fun _ _ => rfl⟩ ?_ fun s h => h
  intro ii s hii hs
  obtain ⟨a, ha, hb, hel⟩ := hS.rows (bi * bmaj + ii) (by omega)
  rw [ha, hb]
  simp only [Ok_bind, Ok_some]
  refine Ok_rowLoop (L := fun ii => (L (bi * bmaj + ii)).map fun e => (ii, e)) (i := ii)
    (fun E s => Put nmin bmaj bmin bnnz base pos bindex value E s) (by simp) hs ?_ fun s h => h
  rintro j hj ⟨kk, iw, bx, vl⟩ hs
  simp only [List.length_map] at hj
  obtain ⟨hc, hv⟩ := hel j hj
  rw [hc, hv]
  simp only [Ok_bind, Ok_some]
  have hpre := concatRows_take_prefix hii (fun ii => (L (bi * bmaj + ii)).map fun e => (ii, e)) (k := j)
    (by simpa using hj)
  have hcm := hm _ (hcol _ (by omega) _ (List.getElem_mem hj))
  have hlen := (blkCols_prefix bmin hpre).length_le
  have heq : (concatRows (min bmaj (n - bi * bmaj)) fun ii => (L (bi * bmaj + ii)).map fun e => (ii, e)) =
    blkElems n bmaj L bi := rfl
  rw [heq] at hlen
  have hst := hs.step hpos hbm ii (L (bi * bmaj + ii))[j].1 (L (bi * bmaj + ii))[j].2 (by omega) hcm
    (by simp only [List.getElem_map] at hlen; exact le_trans (Nat.add_le_add_left hlen _) hroom)
  simpa [List.getElem_map] using hst

/-- what the finished arrays hold -/
structure Blk.Holds [Zero R] (B : Blk R) (nb nmin bmaj bmin n : ℕ) (pos : ℕ → ℕ → ℕ) (L : ℕ → List (ℕ × R)) : Prop where
  psz : B.bptr.size = nb + 1
  ptr : ∀ i, i ≤ nb → B.bptr.get i = ∑ k ∈ range i, (blkCols bmin (blkElems n bmaj L k)).length
  bnnz : B.bnnz = B.bptr.get nb
  isz : B.bindex.size = B.bnnz
  vsz : B.value.size = B.bnnz * (bmaj * bmin)
  ix : ∀ bi, bi < nb → ∀ p (hp : p < (blkCols bmin (blkElems n bmaj L bi)).length),
    B.bindex.get (B.bptr.get bi + p) = (blkCols bmin (blkElems n bmaj L bi))[p]
  vl : ∀ bi, bi < nb → ∀ p (hp : p < (blkCols bmin (blkElems n bmaj L bi)).length), ∀ ii j, ii < bmaj → j < bmin →
    B.value.get ((B.bptr.get bi + p) * (bmaj * bmin) + pos ii j) =
      lastVal (blkElems n bmaj L bi) ii ((blkCols bmin (blkElems n bmaj L bi))[p] * bmin + j)

theorem blkConvert_spec [Zero R] {S : Lines R} {n bmaj bmin nb nmin m : ℕ} {L : ℕ → List (ℕ × R)}
    {pos : ℕ → ℕ → ℕ} (hpos : PosOk bmaj bmin pos) (hbm : 0 < bmin)
    (hS : S.Rep n L) (hm : ∀ c, c < m → c / bmin < nmin) (hcol : ∀ i, i < n → ∀ e ∈ L i, e.1 < m)
    (junk : ℕ → ℕ → ℕ) (vjunk : ℕ → R) :
    Ok (blkConvert S pos n bmaj bmin nb nmin junk vjunk) fun B => B.Holds nb nmin bmaj bmin n pos L := by
  set T : ℕ → ℕ := fun k => (blkCols bmin (blkElems n bmaj L k)).length with hT
  unfold blkConvert
  rw [Ok_bind]
  refine (blkCount_spec hS hm hcol junk (by simp)).mono ?_
  rintro p ⟨hp1, hp2⟩
  simp only [Ok_bind, Ok_wr]
  refine ⟨by omega, ?_⟩
  refine Ok_loop_le (fun i (q : Arr ℕ) => q.size = nb + 1 ∧ (∀ k, k ≤ i → q.get k = ∑ l ∈ range k, T l) ∧
    ∀ k, i ≤ k → k < nb → q.get (k + 1) = T k) (Nat.zero_le _) ⟨by simpa, ?_, ?_⟩ ?_ ?_
  · intro k hk; rw [show k = 0 by omega]; simp
  · intro k _ hk; rw [Arr.set_get_ne _ _ (by omega)]; exact hp2 k hk
  · rintro i q _ hi ⟨q1, q2, q3⟩
    simp only [Ok_bind, Ok_rd, Ok_wr]
    refine ⟨by omega, by omega, by omega, by simpa, fun k hk => ?_, fun k hk hk' => ?_⟩
    · rw [Arr.set_get]
      split
      · next h => rw [h, sum_range_succ, q2 i le_rfl, q3 i le_rfl hi, add_comm]
      · exact q2 k (by omega)
    · rw [Arr.set_get_ne _ _ (by omega)]; exact q3 k (by omega) hk'
  rintro bp ⟨b1, b2, -⟩
  simp only [Ok_rd]
  refine ⟨by omega, ?_⟩
  have hmono : ∀ i, i < nb → bp.get i + T i = bp.get (i + 1) := fun i hi => by
    rw [b2 i (by omega), b2 (i + 1) (by omega), sum_range_succ]
  have hle : ∀ i, i ≤ nb → bp.get i ≤ bp.get nb := fun i hi => by
    rw [b2 i hi, b2 nb le_rfl]
    exact sum_le_sum_of_subset (by simpa using hi)
  unfold blkFill
  simp only [Ok_bind]
  refine Ok_fillConst (by simp) fun iw0 hiw0 hiz => ?_
  refine Ok_loop_le (fun bi (s : Arr ℕ × Arr ℕ × Arr R) => s.1.size = nmin ∧ s.2.1.size = bp.get nb ∧
    s.2.2.size = bp.get nb * (bmaj * bmin) ∧ (∀ c, c < nmin → s.1.get c = 0) ∧
    ∀ b, b < bi → ∀ p (hp : p < (blkCols bmin (blkElems n bmaj L b)).length),
      s.2.1.get (bp.get b + p) = (blkCols bmin (blkElems n bmaj L b))[p] ∧
      ∀ ii j, ii < bmaj → j < bmin → s.2.2.get ((bp.get b + p) * (bmaj * bmin) + pos ii j) =
        lastVal (blkElems n bmaj L b) ii ((blkCols bmin (blkElems n bmaj L b))[p] * bmin + j)) (Nat.zero_le _)
    ⟨by simpa using hiw0, by simp, by simp, hiz, by simp⟩ ?_ ?_
  · rintro bi ⟨iw, bx, vl⟩ _ hbi ⟨g1, g2, g3, g4, g5⟩
    simp only at g1 g2 g3 g4 g5
    have hroom : bp.get bi + T bi ≤ bp.get nb := by rw [hmono bi hbi]; exact hle _ hbi
    simp only [Ok_bind, Ok_rd]
    refine ⟨by omega, ?_⟩
    refine (blkPut_spec hpos hbm hS hm hcol g1 g2 g3 g4 hroom).mono ?_
    rintro ⟨kk, iw', bx', vl'⟩ ⟨p1, p2, p3, p4, p5, p6, p7, p8, p9, p10⟩
    simp only at p1 p2 p3 p4 p5 p6 p7 p8 p9 p10
    refine ⟨by omega, by omega, ?_⟩
    have hin : ∀ x ∈ blkCols bmin (blkElems n bmaj L bi), x < nmin := fun x hx => by
      obtain ⟨y, hy, rfl⟩ := (blkCols_mem _ _ _).1 hx
      exact hm _ (blkElems_prefix_mem (List.prefix_refl _) hcol y hy)
    rw [← hmono bi hbi]
    refine Ok_loop_le (fun k (w : Arr ℕ) => w.size = nmin ∧
      ∀ c, c < nmin → (c ∉ (blkCols bmin (blkElems n bmaj L bi)).drop (k - bp.get bi)) → w.get c = 0)
      (Nat.le_add_right _ _) ⟨p2, by simpa using p5⟩ ?_ ?_
    · rintro k w hk1 hk2 ⟨w1, w2⟩
      simp only [Ok_bind, Ok_rd, Ok_wr]
      have hkk : k - bp.get bi < (blkCols bmin (blkElems n bmaj L bi)).length := by
        have : T bi = (blkCols bmin (blkElems n bmaj L bi)).length := rfl
        omega
      have hx := p7 _ hkk
      rw [show bp.get bi + (k - bp.get bi) = k by omega] at hx
      rw [hx]
      refine ⟨by omega, by rw [w1]; exact hin _ (List.getElem_mem _), by simpa, fun c hc hcn => ?_⟩
      rw [Arr.set_get]
      split
      · rfl
      · next hne =>
        refine w2 c hc ?_
        rw [List.drop_eq_getElem_cons hkk, List.mem_cons, show k - bp.get bi + 1 = k + 1 - bp.get bi by omega]
        simp only [hne, false_or]
        exact hcn
    · rintro w ⟨w1, w2⟩
      simp only [Ok_pure]
      refine ⟨w1, p3, p4, fun c hc => w2 c hc ?_, fun b hb p hp => ?_⟩
      · simp [hT]
      · by_cases hbb : b = bi
        · subst hbb; exact ⟨p7 p hp, p9 p hp⟩
        · have hlt : bp.get b + p < bp.get bi := by
            have h1 := hmono b (by omega)
            have h2 : bp.get (b + 1) ≤ bp.get bi := by
              rw [b2 _ (by omega), b2 bi (by omega)]
              exact sum_le_sum_of_subset (by simp; omega)
            have : T b = (blkCols bmin (blkElems n bmaj L b)).length := rfl
            omega
          obtain ⟨e1, e2⟩ := g5 b (by omega) p hp
          refine ⟨by rw [p8 _ hlt, e1], fun ii j hii hj => ?_⟩
          rw [p10 _ (flat_lt hlt (hpos.lt ii j hii hj)), e2 ii j hii hj]
  · rintro ⟨iw, bx, vl⟩ ⟨g1, g2, g3, g4, g5⟩
    simp only [Ok_pure]
    exact ⟨b1, b2, rfl, g2, g3, fun bi hbi p hp => (g5 bi hbi p hp).1, fun bi hbi p hp => (g5 bi hbi p hp).2⟩

/-- sum over the blocks of a block line that lie in block column `cb` -/
theorem Blk.Holds.sum [AddCommMonoid R] {B : Blk R} {nb nmin bmaj bmin n : ℕ} {pos : ℕ → ℕ → ℕ}
    {L : ℕ → List (ℕ × R)} (h : B.Holds nb nmin bmaj bmin n pos L) (hbm : 0 < bmin)
    (hd : ∀ i, i < n → ((L i).map Prod.fst).Nodup) {i c : ℕ} (hmaj : 0 < bmaj) (hi : i < n) (hib : i / bmaj < nb) :
    (∑ q ∈ Ico (B.bptr.get (i / bmaj)) (B.bptr.get (i / bmaj + 1)),
      if B.bindex.get q = c / bmin then B.value.get (q * (bmaj * bmin) + pos (i % bmaj) (c % bmin)) else 0) =
      ((L i).map fun e => if e.1 = c then e.2 else 0).sum := by
  set bi := i / bmaj
  set E := blkElems n bmaj L bi with hE
  have hlen : B.bptr.get (bi + 1) = B.bptr.get bi + (blkCols bmin E).length := by
    rw [h.ptr _ hib, h.ptr _ (by omega), sum_range_succ]
  have hib' : bi * bmaj + i % bmaj = i := by
    have := Nat.div_add_mod i bmaj; rw [Nat.mul_comm] at this; exact this
  have him : i % bmaj < bmaj := Nat.mod_lt _ hmaj
  have hcm : c % bmin < bmin := Nat.mod_lt _ hbm
  have hcc : c / bmin * bmin + c % bmin = c := by
    have := Nat.div_add_mod c bmin; rw [Nat.mul_comm] at this; exact this
  have hnd : (E.map fun e => (e.1, e.2.1)).Nodup := by
    rw [hE]; unfold blkElems concatRows
    rw [List.map_flatMap, List.nodup_flatMap]
    refine ⟨fun ii hii => ?_, ?_⟩
    · rw [List.map_map]
      have := hd (bi * bmaj + ii) (by simp at hii; omega)
      have h2 := this.map (f := fun x => (ii, x)) (fun a b hab => by simpa using hab)
      rw [List.map_map] at h2
      exact h2
    · refine List.Pairwise.imp_of_mem ?_ (List.nodup_range (n := min bmaj (n - bi * bmaj)))
      intro a b _ _ hab
      rw [Function.onFun, List.disjoint_left]
      intro x hx hy
      simp only [List.mem_map] at hx hy
      obtain ⟨_, ⟨_, _, rfl⟩, rfl⟩ := hx
      obtain ⟨_, ⟨_, _, rfl⟩, hy⟩ := hy
      exact hab (by simpa using (congrArg Prod.fst hy).symm)
  have hfin : lastVal E (i % bmaj) c = ((L i).map fun e => if e.1 = c then e.2 else 0).sum := by
    rw [lastVal_sum hnd, hE]
    unfold blkElems concatRows
    rw [flatMap_range_sum, sum_eq_single (i % bmaj)]
    · rw [List.map_map, hib']; congr 1; refine List.map_congr_left fun e _ => ?_; simp
    · intro b _ hb
      rw [List.map_map]
      refine List.sum_eq_zero ?_
      intro x hx
      simp only [List.mem_map, Function.comp] at hx
      obtain ⟨e, _, rfl⟩ := hx
      simp [hb]
    · intro hh; simp at hh; omega
  rw [← hfin, hlen, sum_Ico_eq_sum_range, Nat.add_sub_cancel_left]
  by_cases hmem : c / bmin ∈ blkCols bmin E
  · obtain ⟨p, hp, hpe⟩ := List.getElem_of_mem hmem
    rw [sum_eq_single p, if_pos (by rw [h.ix bi hib p hp, hpe]), h.vl bi hib p hp _ _ him hcm]
    · show lastVal E (i % bmaj) ((blkCols bmin E)[p] * bmin + c % bmin) = _
      rw [hpe, hcc]
    · intro q hq hqp
      rw [if_neg]
      simp only [mem_range] at hq
      rw [h.ix bi hib q hq]
      intro hh
      exact hqp ((List.Nodup.getElem_inj_iff (blkCols_nodup bmin E)).1 (hh.trans hpe.symm))
    · intro hh; simp at hh; omega
  · rw [lastVal_zero]
    · refine sum_eq_zero fun q hq => ?_
      simp only [mem_range] at hq
      rw [if_neg]
      rw [h.ix bi hib q hq]
      intro hh
      exact hmem (hh ▸ List.getElem_mem _)
    · rintro e he ⟨_, e2⟩
      exact hmem ((blkCols_mem _ _ _).2 ⟨e, he, by rw [e2]⟩)

theorem Blk.Holds.ptrWF [Zero R] {B : Blk R} {nb nmin bmaj bmin n : ℕ} {pos : ℕ → ℕ → ℕ}
    {L : ℕ → List (ℕ × R)} (h : B.Holds nb nmin bmaj bmin n pos L) : PtrWF nb B.bnnz B.bptr :=
  ⟨by rw [h.psz], by rw [h.ptr 0 (by omega)]; simp,
    fun i hi => by rw [h.ptr i (by omega), h.ptr (i + 1) (by omega), sum_range_succ]; omega, h.bnnz.symm⟩

theorem Blk.Holds.idx_lt [Zero R] {B : Blk R} {nb nmin bmaj bmin n m : ℕ} {pos : ℕ → ℕ → ℕ}
    {L : ℕ → List (ℕ × R)} (h : B.Holds nb nmin bmaj bmin n pos L) (hm : ∀ c, c < m → c / bmin < nmin)
    (hcol : ∀ i, i < n → ∀ e ∈ L i, e.1 < m) : ∀ k, k < B.bnnz → B.bindex.get k < nmin := by
  have key : ∀ t, t ≤ nb → ∀ k, k < B.bptr.get t → B.bindex.get k < nmin := by
    intro t
    induction t with
    | zero => intro _ k hk; rw [h.ptr 0 (by omega)] at hk; simp at hk
    | succ t ih =>
      intro ht k hk
      by_cases hk' : k < B.bptr.get t
      · exact ih (by omega) k hk'
      · have e1 := h.ptr (t + 1) ht
        rw [sum_range_succ, ← h.ptr t (by omega)] at e1
        have := h.ix t (by omega) (k - B.bptr.get t) (by omega)
        rw [show B.bptr.get t + (k - B.bptr.get t) = k by omega] at this
        rw [this]
        obtain ⟨y, hy, hyc⟩ := (blkCols_mem _ _ _).1 (List.getElem_mem (l := blkCols bmin (blkElems n bmaj L t))
          (n := k - B.bptr.get t) (by omega))
        rw [← hyc]
        exact hm _ (blkElems_prefix_mem (List.prefix_refl _) hcol y hy)
  intro k hk
  rw [h.bnnz] at hk
  exact key nb le_rfl k hk

/-- BSR position -/
theorem posOk_bsr {bnr bnc : ℕ} : PosOk bnr bnc fun ii j => j * bnr + ii where
  lt := fun ii j hii hj => by rw [Nat.mul_comm bnr bnc]; exact flat_lt hj hii
  inj := fun ii j ii' j' h1 h2 h3 h4 h => by
    obtain ⟨a, b⟩ := block_disj h1 h3 h
    exact ⟨b, a⟩

/-- BSC position, square blocks -/
theorem posOk_bsc {b : ℕ} : PosOk b b fun ii j => j + ii * b where
  lt := fun ii j hii hj => by
    have := flat_lt (n := b) (m := b) hii hj
    show j + ii * b < b * b
    omega
  inj := fun ii j ii' j' h1 h2 h3 h4 h => by
    obtain ⟨a, c⟩ := block_disj (p := ii) (q := ii') (bs := b) h2 h4 (by
      have h' : j + ii * b = j' + ii' * b := h
      omega)
    exact ⟨a, c⟩

theorem blocks_cover {n b : ℕ} (hb : 0 < b) : ∀ c, c < n → c / b < 1 + (n - 1) / b := by
  intro c hc
  have := Nat.div_le_div_right (c := b) (show c ≤ n - 1 by omega)
  omega

theorem blocks_cover' {n b : ℕ} (hb : 0 < b) : n ≤ (1 + (n - 1) / b) * b := by
  rcases Nat.eq_zero_or_pos n with h | h
  · subst h; exact Nat.zero_le _
  · have h1 := Nat.div_add_mod (n - 1) b
    have h2 := Nat.mod_lt (n - 1) hb
    rw [Nat.add_mul, Nat.one_mul, Nat.mul_comm]
    omega

theorem AMat.lines_rep {A : AMat R} (hI : A.bufs.Inv A.n A.gn) : A.lines.Rep A.n A.bufs.rowList := by
  obtain ⟨h1, h2, h3, h4, h5, h6, h7, -, -⟩ := hI
  simp only [AMat.bufs] at h1 h2 h3 h4 h5 h6 h7
  refine ⟨fun i hi => ⟨0, rfl, ?_, fun j hj => ?_⟩⟩
  · have : i < A.wrow.size := by omega
    simp [AMat.lines, Arr.rd, this, AMat.bufs]
  · rw [Bufs.rowList_length] at hj
    simp only [AMat.bufs] at hj
    have e1 := h5 i hi
    have e2 := h6 i hi
    have e3 := h7 i hi
    have g1 : i < A.widx.size := by omega
    have g2 : i < A.wval.size := by omega
    have g3 : j < (A.widx.get i).size := by omega
    have g4 : j < (A.wval.get i).size := by omega
    simp [AMat.lines, Arr.rd, Bufs.rowList, AMat.bufs, g1, g2, g3, g4]

theorem Csr.lines_rep {A : Csr R} (h : A.WF) : A.lines.Rep A.n A.rowList := by
  refine ⟨fun i hi => ⟨A.ptr.get i, ?_, ?_, fun j hj => ?_⟩⟩
  · have := h.ptr.size
    have : i < A.ptr.size := by omega
    simp [Csr.lines, Arr.rd, this]
  · have := h.ptr.size
    have : i + 1 < A.ptr.size := by omega
    have hm := h.ptr.mono i hi
    simp only [Csr.lines, Arr.rd, this, if_true, Csr.rowList_length]
    congr 1; omega
  · rw [Csr.rowList_length] at hj
    have hk := h.ptr.lt_nnz hi (k := A.ptr.get i + j) (by omega)
    have g1 : A.ptr.get i + j < A.index.size := by have := h.isz; omega
    have g2 : A.ptr.get i + j < A.value.size := by have := h.vsz; omega
    simp [Csr.lines, Arr.rd, Csr.rowList, g1, g2]

end Lis
