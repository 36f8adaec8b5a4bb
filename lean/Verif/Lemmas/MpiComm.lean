import Verif.Lemmas.MpiSeg
import Verif.Spec.Mpi
import Verif.Base.Sum

/-! `lis_commtable_create` -/

namespace Lis

variable {R : Type}

/-! ### who owns what -/

/-- global column `j` belongs to rank `s` -/
def Owns (rg : ℕ → ℕ) (s j : ℕ) : Prop := rg s ≤ j ∧ j < rg (s + 1)

instance (rg : ℕ → ℕ) (s j : ℕ) : Decidable (Owns rg s j) := inferInstanceAs (Decidable (_ ∧ _))

theorem IsPartition.mono' {P gn : ℕ} {rg : ℕ → ℕ} (h : IsPartition P gn rg) {a b : ℕ} (hab : a ≤ b) (hb : b ≤ P) :
    rg a ≤ rg b := by
  induction b, hab using Nat.le_induction with
  | base => exact le_rfl
  | succ b _ ih => exact (ih (by omega)).trans (h.mono b (by omega))

theorem IsPartition.owner {P gn : ℕ} {rg : ℕ → ℕ} (h : IsPartition P gn rg) {j : ℕ} (hj : j < gn) :
    ∃ s, s < P ∧ Owns rg s j := by
  rw [← h.last] at hj
  have h0 := h.zero
  have hm := h.mono
  clear h
  induction P with
  | zero => omega
  | succ P ih =>
    by_cases hc : j < rg P
    · obtain ⟨s, h1, h2⟩ := ih hc (fun r hr => hm r (by omega))
      exact ⟨s, by omega, h2⟩
    · exact ⟨P, by omega, by omega, hj⟩

theorem IsPartition.owner_unique {P gn : ℕ} {rg : ℕ → ℕ} (h : IsPartition P gn rg) {j s t : ℕ} (hs : s < P) (ht : t < P)
    (h1 : Owns rg s j) (h2 : Owns rg t j) : s = t := by
  rcases Nat.lt_trichotomy s t with hlt | he | hlt
  · have := h.mono' (show s + 1 ≤ t from hlt) (by omega)
    unfold Owns at *; omega
  · exact he
  · have := h.mono' (show t + 1 ≤ s from hlt) (by omega)
    unfold Owns at *; omega

/-- the elements of `L` owned by `s` -/
def ownedBy (rg : ℕ → ℕ) (L : List ℕ) (s : ℕ) : List ℕ := L.filter fun j => Owns rg s j

theorem ownedBy_mem {rg : ℕ → ℕ} {L : List ℕ} {s j : ℕ} : j ∈ ownedBy rg L s ↔ j ∈ L ∧ Owns rg s j := by
  simp [ownedBy]

/-- an increasing list is the concatenation of its parts by owner -/
theorem flatMap_ownedBy {rg : ℕ → ℕ} {L : List ℕ} (hL : L.Pairwise (· < ·)) : ∀ (P : ℕ), (∀ r, r < P → rg r ≤ rg (r + 1)) →
    (List.range P).flatMap (ownedBy rg L) = L.filter fun j => rg 0 ≤ j ∧ j < rg P := by
  intro P
  induction P with
  | zero =>
    intro _
    rw [List.range_zero, List.flatMap_nil, eq_comm, List.filter_eq_nil_iff]
    intro j _; simp
  | succ P ih =>
    intro hm
    have h0 : rg 0 ≤ rg P := by
      clear ih
      have : ∀ q, q ≤ P → rg 0 ≤ rg q := by
        intro q
        induction q with
        | zero => intro _; exact le_rfl
        | succ q ih => intro hq; exact (ih (by omega)).trans (hm q (by omega))
      exact this P le_rfl
    have h1 := hm P (by omega)
    rw [List.range_succ, List.flatMap_append, ih (fun r hr => hm r (by omega))]
    simp only [List.flatMap_cons, List.flatMap_nil, List.append_nil, ownedBy, Owns]
    clear ih
    induction L with
    | nil => rfl
    | cons a L ihL =>
      rw [List.pairwise_cons] at hL
      by_cases ha : a < rg P
      · by_cases ha0 : rg 0 ≤ a
        · have e1 : ¬ rg P ≤ a := by omega
          have e2 : a < rg (P + 1) := by omega
          simp only [List.filter_cons, ha, ha0, e1, e2, and_self, decide_true, if_true, false_and, decide_false, List.cons_append]
          simp only [Bool.false_eq_true, if_false]
          rw [ihL hL.2]
        · have e1 : ¬ rg P ≤ a := by omega
          simp only [List.filter_cons, ha0, e1, false_and, decide_false, Bool.false_eq_true, if_false]
          exact ihL hL.2
      · have e0 : L.filter (fun j => decide (rg 0 ≤ j ∧ j < rg P)) = [] := by
          rw [List.filter_eq_nil_iff]
          intro j hj
          have := hL.1 j hj
          simp; omega
        have ih' := ihL hL.2
        rw [e0, List.nil_append] at ih'
        have e1 : rg P ≤ a := by omega
        have e2 : rg 0 ≤ a := by omega
        simp only [List.filter_cons, ha, e1, e2, and_false, decide_false, Bool.false_eq_true, if_false, true_and, e0, List.nil_append, ih']

theorem flatMap_filter_nonempty {α : Type} (N : List ℕ) (f : ℕ → List α) (c : ℕ → Bool) (hc : ∀ s ∈ N, f s ≠ [] → c s = true) :
    (N.filter c).flatMap f = N.flatMap f := by
  induction N with
  | nil => rfl
  | cons s N ih =>
    have ih' := ih (fun t ht => hc t (by simp [ht]))
    by_cases h : c s = true
    · simp [h, ih']
    · have : f s = [] := by
        by_contra hne
        exact h (hc s (by simp) hne)
      simp [h, ih', this]

/-! ### the setting -/

/-- the data of a distributed matrix that the communication table depends on: a partition of the columns and, for
every rank, the increasing list of remote columns it needs -/
structure Halo (P gn : ℕ) (rg : ℕ → ℕ) (L : ℕ → List ℕ) : Prop where
  part : IsPartition P gn rg
  incr : ∀ r, r < P → (L r).Pairwise (· < ·)
  lt : ∀ r, r < P → ∀ j ∈ L r, j < gn

/-- what rank `r` needs from rank `s` -/
abbrev want (rg : ℕ → ℕ) (L : ℕ → List ℕ) (r s : ℕ) : List ℕ := ownedBy rg (L r) s

/-- the ranks `r` exchanges messages with -/
def nbrs (P : ℕ) (rg : ℕ → ℕ) (L : ℕ → List ℕ) (r : ℕ) : List ℕ :=
  (List.range P).filter fun s => want rg L r s ≠ [] ∨ want rg L s r ≠ []

theorem nbrs_nodup (P : ℕ) (rg : ℕ → ℕ) (L : ℕ → List ℕ) (r : ℕ) :
    (nbrs P rg L r).Nodup ∧ ∀ d ∈ nbrs P rg L r, d < P :=
  ⟨List.nodup_range.filter _, fun d hd => by simpa using (List.mem_filter.1 hd).1⟩

theorem nbrs_symm {P : ℕ} {rg : ℕ → ℕ} {L : ℕ → List ℕ} {r s : ℕ} (hr : r < P) (hs : s < P) :
    s ∈ nbrs P rg L r ↔ r ∈ nbrs P rg L s := by
  simp only [nbrs, List.mem_filter, List.mem_range, hr, hs, true_and, decide_eq_true_eq]
  exact or_comm

theorem Halo.flat {P gn : ℕ} {rg : ℕ → ℕ} {L : ℕ → List ℕ} (h : Halo P gn rg L) {r : ℕ} (hr : r < P) :
    (nbrs P rg L r).flatMap (want rg L r) = L r := by
  unfold nbrs
  rw [flatMap_filter_nonempty _ _ _ (fun s _ hs => by simp [hs]), flatMap_ownedBy (h.incr r hr) P h.part.mono,
    List.filter_eq_self]
  intro j hj
  have := h.lt r hr j hj
  rw [h.part.zero, h.part.last]
  simpa using this

theorem range_filter_prefix {P i : ℕ} (hi : i ≤ P) (c : ℕ → Bool) :
    (List.range i).filter c <+: (List.range P).filter c := by
  obtain ⟨k, rfl⟩ := Nat.exists_eq_add_of_le hi
  rw [List.range_add, List.filter_append]
  exact List.prefix_append _ _

/-! ### the local parts -/

theorem ownerFrom_eq {P gn : ℕ} {rg : ℕ → ℕ} (h : IsPartition P gn rg) {ranges : Arr ℕ} (hs : P + 1 ≤ ranges.size)
    (hr : ∀ k, k ≤ P → ranges.get k = rg k) {j o k : ℕ} (ho : o < P) (hj : Owns rg o j) (hk : k ≤ o) :
    ownerFrom ranges j k = some o := by
  have : Ok (ownerFrom ranges j k) (fun k => k = o) := by
    unfold ownerFrom
    refine Ok_while (fun k => k ≤ o) (fun k => o - k) hk ?_
    intro k hk
    have e : ranges.rd (k + 1) = some (rg (k + 1)) := by
      unfold Arr.rd; rw [if_pos (by omega), hr _ (by omega)]
    rw [e]
    simp only [Option.map_some, Ok_some]
    by_cases hko : k = o
    · subst hko
      have : ¬ rg (k + 1) ≤ j := by have := hj.2; omega
      simp [this]
    · have h1 := h.mono' (show k + 1 ≤ o by omega) (by omega)
      have : rg (k + 1) ≤ j := h1.trans hj.1
      simp only [this, decide_true, if_true, Ok_some]
      omega
  obtain ⟨_, h1, rfl⟩ := this
  exact h1

theorem owner_mono {P gn : ℕ} {rg : ℕ → ℕ} (h : IsPartition P gn rg) {i j s t : ℕ} (hij : i ≤ j) (hs : s < P)
    (h1 : Owns rg s i) (h2 : Owns rg t j) : s ≤ t := by
  by_contra hlt
  have := h.mono' (show t + 1 ≤ s by omega) (by omega)
  unfold Owns at *
  omega

theorem commCount_spec {P gn : ℕ} {rg : ℕ → ℕ} (h : IsPartition P gn rg) (J : CommJunk R) {ranges l2g : Arr ℕ}
    (hs : P + 1 ≤ ranges.size) (hr : ∀ k, k ≤ P → ranges.get k = rg k) {L : List ℕ} (hL : L.Pairwise (· < ·))
    (hlt : ∀ j ∈ L, j < gn) (hl : L.length ≤ l2g.size) (hf : Filled l2g.get L) :
    Ok (commCount J P ranges L.length l2g) fun o => o.1.size = L.length + J.slack ∧ Filled o.1.get L ∧
      o.2.size = P ∧ ∀ s, s < P → o.2.get s = (ownedBy rg L s).length := by
  unfold commCount
  rw [Ok_bind]
  refine Ok_loop_fill (fun i => l2g.get i) (fun i y _ hi hs _ _ => ?_) ?_
  · simp only [Ok_bind, Ok_rd, Ok_wr, Arr.malloc_size] at hs ⊢
    exact ⟨by omega, by omega, trivial⟩
  intro imp e1 e2 _
  have himp : Filled imp.get L := fun q hq => by rw [e2 q (by omega) hq, hf q hq]
  rw [Ok_bind]
  refine Ok_loop_fill (fun _ => 0) (fun i y _ hi hs _ _ => ?_) ?_
  · simp only [Ok_wr, Arr.malloc_size] at hs ⊢
    exact ⟨by omega, trivial⟩
  intro im0 z1 z2 _
  rw [Ok_bind]
  simp only [Arr.malloc_size] at e1 z1
  refine Ok_loop_le (fun i (s : ℕ × Arr ℕ) => (∀ j (hj : j < L.length), i ≤ j → ∀ t, t < P → Owns rg t L[j] → s.1 ≤ t) ∧ s.2.size = P ∧
    ∀ s', s' < P → s.2.get s' = (ownedBy rg (L.take i) s').length) (Nat.zero_le _) ?_ ?_ ?_
  · refine ⟨fun _ _ _ _ _ _ => Nat.zero_le _, z1, fun s' hs' => ?_⟩
    simp [ownedBy, z2 s' (by omega) hs']
  · rintro i ⟨k, im⟩ _ hi ⟨i1, i2, i3⟩
    dsimp only at i1 i2 i3 ⊢
    obtain ⟨o, ho, hoj⟩ := h.owner (hlt _ (List.getElem_mem hi))
    have hk := i1 i hi le_rfl o ho hoj
    rw [Ok_bind, Ok_rd]
    refine ⟨by omega, ?_⟩
    rw [himp i hi, ownerFrom_eq h hs hr ho hoj hk]
    simp only [Ok_bind, Ok_some, Ok_rd, Ok_wr, Ok_pure]
    refine ⟨by omega, by omega, fun j hj hij t ht hot => ?_, by simpa using i2, fun s' hs' => ?_⟩
    · have : L[i] ≤ L[j] := Nat.le_of_lt (List.pairwise_iff_getElem.1 hL i j hi hj (by omega))
      exact owner_mono h this ho hoj hot
    · rw [List.take_succ_eq_append_getElem hi]
      simp only [ownedBy, List.filter_append, List.length_append]
      by_cases hso : s' = o
      · subst hso
        rw [Arr.set_get_self, i3 s' hs']
        simp [ownedBy, hoj]
      · have : ¬ Owns rg s' L[i] := fun hh => hso (h.owner_unique hs' ho hh hoj)
        rw [Arr.set_get_ne _ _ hso, i3 s' hs']
        simp [ownedBy, this]
  rintro ⟨k, im⟩ ⟨_, i2, i3⟩
  rw [List.take_length] at i3
  rw [Ok_pure]
  exact ⟨e1, himp, i2, i3⟩

theorem commTotals_spec {P : ℕ} {im ex : Arr ℕ} {a b : ℕ → ℕ} (h1 : P ≤ im.size) (h2 : P ≤ ex.size)
    (ha : ∀ i, i < P → im.get i = a i) (hb : ∀ i, i < P → ex.get i = b i) :
    Ok (commTotals P im ex) fun o => o.1 = ((List.range P).filter fun i => a i ≠ 0 ∨ b i ≠ 0).length ∧
      o.2 = (((List.range P).filter fun i => a i ≠ 0 ∨ b i ≠ 0).map b).sum := by
  unfold commTotals
  refine Ok_loop_le (fun i (o : ℕ × ℕ) => o.1 = ((List.range i).filter fun i => a i ≠ 0 ∨ b i ≠ 0).length ∧
      o.2 = (((List.range i).filter fun i => a i ≠ 0 ∨ b i ≠ 0).map b).sum) (Nat.zero_le _) ⟨rfl, rfl⟩ ?_ (fun s hs => hs)
  rintro i ⟨x, y⟩ _ hi ⟨i1, i2⟩
  dsimp only at i1 i2 ⊢
  simp only [Ok_bind, Ok_rd, ha i hi, hb i hi]
  refine ⟨by omega, by omega, ?_⟩
  rw [List.range_succ, List.filter_append]
  by_cases hc : a i ≠ 0 ∨ b i ≠ 0
  · rw [if_pos hc, Ok_pure]
    simp only [List.filter_cons, hc, decide_true, if_true, List.filter_nil, List.length_append, List.length_singleton, List.map_append,
      List.sum_append, List.map_cons, List.map_nil, List.sum_cons, List.sum_nil]
    omega
  · rw [if_neg hc, Ok_pure]
    simp only [List.filter_cons, hc, decide_false, Bool.false_eq_true, if_false, List.filter_nil, List.append_nil]
    exact ⟨i1, i2⟩

/-- pointers under construction -/
def PartPtr {β : Type} (N : List ℕ) (f : ℕ → List β) (p : ℕ → ℕ) : Prop :=
  ∀ i, i ≤ N.length → p i = ((N.take i).flatMap f).length

theorem PartPtr.snoc {β : Type} {N : List ℕ} {f : ℕ → List β} {p : Arr ℕ} (h : PartPtr N f p.get) (s : ℕ) {v : ℕ}
    (hv : v = p.get N.length + (f s).length) : PartPtr (N ++ [s]) f (p.set (N.length + 1) v).get := by
  intro i hi
  rw [List.length_append, List.length_singleton] at hi
  by_cases hi' : i = N.length + 1
  · subst hi'
    rw [Arr.set_get_self, hv, h _ le_rfl, List.take_length,
      show N.length + 1 = (N ++ [s]).length by simp, List.take_length]
    simp
  · rw [Arr.set_get_ne _ _ hi', h i (by omega), List.take_append_of_le_length (by omega)]

theorem commNeib_spec (J : CommJunk R) {β γ : Type} {P : ℕ} {im ex : Arr ℕ} {f : ℕ → List β} {g : ℕ → List γ} (h1 : P ≤ im.size)
    (h2 : P ≤ ex.size) (ha : ∀ i, i < P → im.get i = (f i).length) (hb : ∀ i, i < P → ex.get i = (g i).length) {N : List ℕ}
    (hN : N = (List.range P).filter fun i => f i ≠ [] ∨ g i ≠ []) :
    Ok (commNeib J P N.length im ex) fun o => o.1.size = N.length ∧ Filled o.1.get N ∧ PtrOf N f o.2.1 ∧ PtrOf N g o.2.2 := by
  unfold commNeib
  simp only [Ok_bind, Ok_wr, Arr.malloc_size]
  refine ⟨by omega, by omega, ?_⟩
  let c : ℕ → Bool := fun i => f i ≠ [] ∨ g i ≠ []
  have hN' : N = (List.range P).filter c := by rw [hN]
  refine Ok_loopB (fun i (s : ℕ × Arr ℕ × Arr ℕ × Arr ℕ) => s.1 = ((List.range (min i P)).filter c).length ∧ s.2.1.size = N.length ∧
    Filled s.2.1.get ((List.range (min i P)).filter c) ∧ s.2.2.1.size = N.length + 1 ∧ PartPtr ((List.range (min i P)).filter c) f s.2.2.1.get ∧
    s.2.2.2.size = N.length + 1 ∧ PartPtr ((List.range (min i P)).filter c) g s.2.2.2.get) ?_ ?_ ?_
  · simp only [Nat.zero_min, List.range_zero, List.filter_nil]
    refine ⟨rfl, rfl, Filled.nil _, rfl, fun i hi => ?_, rfl, fun i hi => ?_⟩ <;>
    · have : i = 0 := by simpa using hi
      subst this; simp
  · rintro i ⟨n1, neib, ip, ep⟩ _ hi ⟨e1, e2, e3, e4, e5, e6, e7⟩
    rw [Nat.min_eq_left hi.le] at e1 e3 e5 e7
    dsimp only at e1 e2 e3 e4 e5 e6 e7 ⊢
    set Ni := (List.range i).filter c with hNi
    by_cases hlt : n1 < N.length
    · rw [if_pos hlt]
      simp only [Ok_bind, Ok_rd, ha i hi, hb i hi]
      refine ⟨by omega, by omega, ?_⟩
      have hnext : (List.range (min (i + 1) P)).filter c = Ni ++ (if c i then [i] else []) := by
        rw [Nat.min_eq_left hi, List.range_succ, List.filter_append, List.filter_singleton]; cases c i <;> rfl
      have hciff : ((f i).length ≠ 0 ∨ (g i).length ≠ 0) ↔ c i = true := by
        simp [c]
      by_cases hc : (f i).length ≠ 0 ∨ (g i).length ≠ 0
      · rw [if_pos hc]
        simp only [Ok_bind, Ok_rd, Ok_wr, Ok_pure]
        refine ⟨by omega, by omega, by omega, by omega, by omega, ?_⟩
        simp only [Bool.false_eq_true, if_false]
        rw [hnext, if_pos (hciff.1 hc)]
        refine ⟨by simp [e1], e2, ?_, e4, ?_, e6, ?_⟩
        · refine e3.snoc fun q => ?_
          rw [Arr.set_get, e1]
        · rw [e1]; exact e5.snoc i rfl
        · rw [e1]; exact e7.snoc i rfl
      · rw [if_neg hc, Ok_pure]
        simp only [Bool.false_eq_true, if_false]
        rw [hnext, if_neg (fun hh => hc (hciff.2 hh)), List.append_nil]
        exact ⟨e1, e2, e3, e4, e5, e6, e7⟩
    · rw [if_neg hlt, Ok_pure]
      simp only [if_true, Ok_pure]
      have hpre : Ni <+: N := by rw [hN']; exact range_filter_prefix hi.le c
      have : Ni = N := hpre.eq_of_length (by have := hpre.length_le; omega)
      rw [this] at e3 e5 e7
      exact ⟨e2, e3, ⟨by omega, e5⟩, ⟨by omega, e7⟩⟩
  · rintro ⟨n1, neib, ip, ep⟩ ⟨e1, e2, e3, e4, e5, e6, e7⟩
    rw [show min (max 0 P) P = P by omega, ← hN'] at e1 e3 e5 e7
    dsimp only at e1 e2 e3 e4 e5 e6 e7 ⊢
    rw [Ok_pure]
    dsimp only
    exact ⟨e2, e3, ⟨by omega, e5⟩, ⟨by omega, e7⟩⟩

theorem commRelative_spec {P gn : ℕ} {rg : ℕ → ℕ} (h : IsPartition P gn rg) {ranges imp : Arr ℕ}
    (hs : P + 1 ≤ ranges.size) (hr : ∀ k, k ≤ P → ranges.get k = rg k) {L : List ℕ} (hL : L.Pairwise (· < ·))
    (hlt : ∀ j ∈ L, j < gn) (hl : L.length ≤ imp.size) (hf : Filled imp.get L) {ow : ℕ → ℕ}
    (how : ∀ j, j < gn → ow j < P ∧ Owns rg (ow j) j) :
    Ok (commRelative ranges L.length imp) fun o => o.size = imp.size ∧ Filled o.get (L.map fun j => j - rg (ow j)) := by
  unfold commRelative
  rw [Ok_bind]
  refine Ok_loop_le (fun i (s : ℕ × Arr ℕ) => (∀ j (hj : j < L.length), i ≤ j → s.1 ≤ ow L[j]) ∧ s.2.size = imp.size ∧
    (∀ j (hj : j < L.length), j < i → s.2.get j = L[j] - rg (ow L[j])) ∧ ∀ j (hj : j < L.length), i ≤ j → s.2.get j = L[j])
    (Nat.zero_le _) ⟨fun _ _ _ => Nat.zero_le _, rfl, fun j _ hj => by omega, fun j hj _ => hf j hj⟩ ?_ ?_
  · rintro i ⟨k, a⟩ _ hi ⟨i1, i2, i3, i4⟩
    dsimp only at i1 i2 i3 i4 ⊢
    obtain ⟨ho, hoj⟩ := how _ (hlt _ (List.getElem_mem hi))
    rw [Ok_bind, Ok_rd]
    refine ⟨by omega, ?_⟩
    rw [i4 i hi le_rfl, ownerFrom_eq h hs hr ho hoj (i1 i hi le_rfl)]
    simp only [Ok_bind, Ok_some, Ok_rd, Ok_wr, Ok_pure]
    refine ⟨by omega, by omega, fun j hj hij => ?_, by simpa using i2, fun j hj hji => ?_, fun j hj hij => ?_⟩
    · have : L[i] ≤ L[j] := Nat.le_of_lt (List.pairwise_iff_getElem.1 hL i j hi hj (by omega))
      exact owner_mono h this ho hoj (how _ (hlt _ (List.getElem_mem hj))).2
    · by_cases hji' : j = i
      · subst hji'; rw [Arr.set_get_self, hr _ (by omega)]
      · rw [Arr.set_get_ne _ _ hji']; exact i3 j hj (by omega)
    · rw [Arr.set_get_ne _ _ (by omega)]; exact i4 j hj (by omega)
  rintro ⟨k, a⟩ ⟨_, i2, i3, _⟩
  rw [Ok_pure]
  refine ⟨i2, fun q hq => ?_⟩
  rw [List.length_map] at hq
  rw [i3 q hq hq]; simp

/-! ### the index exchange -/

theorem Arr.rd_eq {α : Type} {a : Arr α} {i : ℕ} (h : i < a.size) : a.rd i = some (a.get i) := by
  unfold Arr.rd; rw [if_pos h]

theorem commIndices_talks {N : List ℕ} {f g : ℕ → List ℕ} {neib iptr eptr imp exi : Arr ℕ} (hn : Filled neib.get N)
    (hns : N.length ≤ neib.size) (hi : PtrOf N f iptr) (he : PtrOf N g eptr) (himp : Filled imp.get (N.flatMap f))
    (hims : (N.flatMap f).length ≤ imp.size) (hexs : (N.flatMap g).length ≤ exi.size) :
    (commIndices (R := R) N.length neib iptr eptr imp exi).Talks N (fun s => .ints (f s)) N (fun s => .ints (g s))
      fun q => ∃ b, q = .ret b ∧ b.size = exi.size ∧ Filled b.get (N.flatMap g) := by
  unfold commIndices
  have hsz := hi.size
  have hsends := Proc.Sends.loop (M := Msg R) (n := N.length) (s := ())
    (f := fun i _ => do
      let k ← Proc.lift (neib.rd i)
      let n1 ← Proc.lift (iptr.rd i)
      let e ← Proc.lift (iptr.rd (i + 1))
      let m ← Proc.lift (imp.slice n1 (e - n1))
      .send k (.ints m) (pure ())) (fun _ _ => True) (fun i => (N.getD i 0, .ints (f (N.getD i 0)))) trivial (by
      intro i s hi' _
      refine ⟨(), ?_, trivial⟩
      rw [Proc.lift_bind (Arr.rd_eq (by omega)), Proc.lift_bind (Arr.rd_eq (by omega)), Proc.lift_bind (Arr.rd_eq (by omega)),
        hi.sub hi', Proc.lift_bind (slice_seg himp hi hims hi'), hn i hi', List.getD_eq_getElem _ _ hi']
      rfl)
  rw [map_range_getElem (N := N) _ (fun s => (s, Msg.ints (f s))) (fun i hi => by rw [List.getD_eq_getElem _ _ hi])] at hsends
  refine hsends.talks _ fun u _ => ⟨fun ms => .lift do
      let ms ← ms.mapM Msg.asInts
      deliver (mkRq g 0 N) ms exi, ?_, recvInts hexs⟩
  rw [Proc.lift_bind (postRecvs_eq hn hns he), mkRq_fst]

end Lis
