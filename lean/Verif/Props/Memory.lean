import Verif.Spec.Memory
import Mathlib.Data.List.Pairwise
import Mathlib.Data.List.Nodup
import Mathlib.Tactic.Linarith

/-! # C32: the tracked allocator -/

namespace Lis

/-- `next`/`prev` link `a`, then `l`, then `b` -/
def Path (nd : Nat → MNode) : Nat → List Nat → Nat → Prop
  | a, [], b => (nd a).next = b ∧ (nd b).prev = a
  | a, x :: l, b => (nd a).next = x ∧ (nd x).prev = a ∧ Path nd x l b

theorem Path_append {nd : Nat → MNode} : ∀ {l1 : List Nat} {a x : Nat} {l2 : List Nat} {b : Nat},
    Path nd a (l1 ++ x :: l2) b ↔ Path nd a l1 x ∧ Path nd x l2 b
  | [], a, x, l2, b => by simp [Path, and_assoc]
  | y :: l1, a, x, l2, b => by simp [Path, Path_append (l1 := l1), and_assoc]

theorem Path_congr {nd nd' : Nat → MNode} : ∀ {l : List Nat} {a b : Nat}, Path nd a l b →
    (∀ i, i = a ∨ i ∈ l → (nd' i).next = (nd i).next) → (∀ i, i = b ∨ i ∈ l → (nd' i).prev = (nd i).prev) →
    Path nd' a l b
  | [], a, b, h, h1, h2 => by
    rw [Path, h1 a (.inl rfl), h2 b (.inl rfl)]; exact h
  | x :: l, a, b, h, h1, h2 => by
    obtain ⟨p1, p2, p3⟩ := h
    refine ⟨by rw [h1 a (.inl rfl)]; exact p1, by rw [h2 x (.inr List.mem_cons_self)]; exact p2, Path_congr p3 ?_ ?_⟩
    · rintro i (rfl | hi)
      · exact h1 _ (.inr List.mem_cons_self)
      · exact h1 _ (.inr (List.mem_cons_of_mem _ hi))
    · rintro i (rfl | hi)
      · exact h2 _ (.inl rfl)
      · exact h2 _ (.inr (List.mem_cons_of_mem _ hi))

/-- the node before the end -/
theorem Path_last {nd : Nat → MNode} : ∀ {l : List Nat} {a b : Nat}, Path nd a l b →
    ((nd b).prev = a ∧ l = [] ∨ (nd b).prev ∈ l) ∧ (nd (nd b).prev).next = b
  | [], a, b, h => ⟨.inl ⟨h.2, rfl⟩, by rw [h.2]; exact h.1⟩
  | x :: l, a, b, h => by
    obtain ⟨h1, h2⟩ := Path_last h.2.2
    refine ⟨.inr ?_, h2⟩
    rcases h1 with h1 | h1
    · rw [h1.1]; exact List.mem_cons_self
    · exact List.mem_cons_of_mem _ h1

/-- the node after the start -/
theorem Path_first {nd : Nat → MNode} {l : List Nat} {a b : Nat} (h : Path nd a l b) :
    ((nd a).next = b ∧ l = [] ∨ (nd a).next ∈ l) ∧ (nd (nd a).next).prev = a := by
  cases l with
  | nil => exact ⟨.inl ⟨h.1, rfl⟩, by rw [h.1]; exact h.2⟩
  | cons x l => exact ⟨.inr (by rw [h.1]; exact List.mem_cons_self), by rw [h.1]; exact h.2.1⟩

/-- replace the end of a path -/
theorem Path_reend {nd nd' : Nat → MNode} : ∀ {l : List Nat} {a b c : Nat}, Path nd a l b →
    (a :: l).Nodup →
    (nd' ((nd b).prev)).next = c → (nd' c).prev = (nd b).prev →
    (∀ i, i = a ∨ i ∈ l → i ≠ (nd b).prev → (nd' i).next = (nd i).next) →
    (∀ i ∈ l, (nd' i).prev = (nd i).prev) → Path nd' a l c
  | [], a, b, c, h, _, h1, h2, _, _ => by
    rw [h.2] at h1 h2
    exact ⟨h1, h2⟩
  | x :: l, a, b, c, h, hnd, h1, h2, h3, h4 => by
    obtain ⟨p1, p2, p3⟩ := h
    have hn := List.nodup_cons.mp hnd
    have hne : a ≠ (nd b).prev := by
      rintro e
      rcases (Path_last p3).1 with h | h
      · rw [← e] at h; exact hn.1 (h.1 ▸ List.mem_cons_self)
      · rw [← e] at h; exact hn.1 (List.mem_cons_of_mem _ h)
    refine ⟨by rw [h3 a (.inl rfl) hne]; exact p1, by rw [h4 x List.mem_cons_self]; exact p2,
      Path_reend p3 hn.2 h1 h2 ?_ ?_⟩
    · rintro i (rfl | hi) hi2
      · exact h3 _ (.inr List.mem_cons_self) hi2
      · exact h3 _ (.inr (List.mem_cons_of_mem _ hi)) hi2
    · exact fun i hi => h4 i (List.mem_cons_of_mem _ hi)

/-- pairwise disjoint, non-empty blocks, none at `NULL` -/
structure RawOK (raw : List (Nat × Nat)) : Prop where
  pos : ∀ b ∈ raw, b.1 ≠ 0 ∧ 0 < b.2
  disj : raw.Pairwise fun a b => a.1 + a.2 ≤ b.1 ∨ b.1 + b.2 ≤ a.1

/-- the invariant: the nodes `ids` form the circular list and describe the blocks `live`, whose raw blocks are
all the live ones -/
structure MemInv (s : MemSt) (ids : List Nat) (live : List (Nat × Nat)) : Prop where
  path : Path s.node 0 ids 0
  nodup : (0 :: ids).Nodup
  alive : ∀ i ∈ 0 :: ids, s.alive i = true
  top : (s.node 0).address = 0
  raw : RawOK s.raw
  blk : live = ids.map fun i => ((s.node i).address, (s.node i).size)
  al : ∀ i ∈ ids, (s.node i).address = align16 (s.node i).real
  own : s.raw.Perm (ids.map fun i => ((s.node i).real, (s.node i).size + 16))

theorem align16_le (r : Nat) : r ≤ align16 r ∧ align16 r ≤ r + 15 ∧ align16 r % 16 = 0 := by
  unfold align16
  omega

theorem align16_ne {r : Nat} (h : r ≠ 0) : align16 r ≠ 0 := by
  have := (align16_le r).1
  omega

namespace MemInv
variable {s : MemSt} {ids : List Nat} {live : List (Nat × Nat)}

theorem real_ne (h : MemInv s ids live) {i : Nat} (hi : i ∈ ids) : (s.node i).real ≠ 0 :=
  (h.raw.pos _ ((h.own.mem_iff).mpr (List.mem_map_of_mem hi))).1

theorem addr_ne (h : MemInv s ids live) {i : Nat} (hi : i ∈ ids) : (s.node i).address ≠ 0 := by
  rw [h.al i hi]; exact align16_ne (h.real_ne hi)

theorem disj_ids (h : MemInv s ids live) : ids.Pairwise fun i j =>
    (s.node i).real + ((s.node i).size + 16) ≤ (s.node j).real ∨
    (s.node j).real + ((s.node j).size + 16) ≤ (s.node i).real := by
  have := (List.Perm.pairwise_iff (R := fun a b : Nat × Nat => a.1 + a.2 ≤ b.1 ∨ b.1 + b.2 ≤ a.1)
    (fun {a b} h => h.symm) h.own).mp h.raw.disj
  rw [List.pairwise_map] at this
  exact this

theorem addr_inj (h : MemInv s ids live) {i j : Nat} (hi : i ∈ ids) (hj : j ∈ ids)
    (he : (s.node i).address = (s.node j).address) : i = j := by
  by_contra hne
  have hd := h.disj_ids
  have := @List.Pairwise.forall _ _ _ ⟨fun i j h => Or.symm h⟩ hd _ hi _ hj hne
  rw [h.al i hi, h.al j hj] at he
  have := align16_le (s.node i).real
  have := align16_le (s.node j).real
  omega

end MemInv

theorem nd_some {s : MemSt} {i : Nat} (h : s.alive i = true) : s.nd i = some (s.node i) := by simp [MemSt.nd, h]

/-- the search finds the node with the address, or ends at the top -/
theorem Ok_memSearch {s : MemSt} {ids : List Nat} {live : List (Nat × Nat)} (h : MemInv s ids live) (p : Nat) :
    Ok (memSearch s p) fun ma => (ma ∈ ids ∧ (s.node ma).address = p) ∨
      (ma = 0 ∧ ∀ i ∈ ids, (s.node i).address ≠ p) := by
  unfold memSearch
  rw [nd_some (h.alive 0 List.mem_cons_self)]
  simp only [Option.bind_eq_bind, Option.bind_some]
  have hget : ∀ k, k ≤ ids.length → ∀ a l, (∀ i ∈ l, (s.node i).address ≠ p) → ids = l ++ ids.drop (ids.length - k) →
      Path s.node a (ids.drop (ids.length - k)) 0 → l.length = ids.length - k → 
      Ok (whileL (fun ma => (s.nd ma).bind fun m => some (m.address != 0 && m.address != p))
    (fun ma => (s.nd ma).bind fun m => some m.next) (s.node a).next) fun ma => (ma ∈ ids ∧ (s.node ma).address = p) ∨
      (ma = 0 ∧ ∀ i ∈ ids, (s.node i).address ≠ p) := by
    intro k
    induction k with
    | zero =>
      intro _ a l hl he hp _
      rw [Nat.sub_zero, List.drop_length] at he hp
      rw [hp.1, whileL, nd_some (h.alive 0 List.mem_cons_self)]
      simp only [Option.bind_some, h.top, bne_self_eq_false, Bool.false_and]
      exact ⟨0, rfl, .inr ⟨rfl, by rw [he]; simpa using hl⟩⟩
    | succ k ih =>
      intro hk a l hl he hp hlen
      have hlt : ids.length - (k + 1) < ids.length := by omega
      rw [List.drop_eq_getElem_cons hlt, show ids.length - (k + 1) + 1 = ids.length - k by omega] at he hp
      obtain ⟨p1, p2, p3⟩ := hp
      have hm : ids[ids.length - (k + 1)] ∈ ids := List.getElem_mem _
      rw [p1, whileL, nd_some (h.alive _ (List.mem_cons_of_mem _ hm))]
      simp only [Option.bind_some]
      have h0 := h.addr_ne hm
      by_cases hpe : (s.node ids[ids.length - (k + 1)]).address = p
      · rw [hpe]
        simp only [bne_self_eq_false, Bool.and_false]
        exact ⟨_, rfl, .inl ⟨hm, hpe⟩⟩
      · rw [show ((s.node ids[ids.length - (k + 1)]).address != 0 &&
            (s.node ids[ids.length - (k + 1)]).address != p) = true by simp [h0, hpe]]
        simp only
        refine ih (by omega) _ (l ++ [ids[ids.length - (k + 1)]]) ?_ ?_ p3 ?_
        · intro i hi
          rcases List.mem_append.mp hi with hi | hi
          · exact hl i hi
          · rw [List.mem_singleton.mp hi]; exact hpe
        · rw [List.append_assoc]; exact he
        · simp only [List.length_append, List.length_singleton]; omega
  exact hget ids.length le_rfl 0 [] (by simp) (by simp) (by simpa using h.path) (by simp)


theorem wrNd_some {s : MemSt} {i : Nat} (f : MNode → MNode) (h : s.alive i = true) :
    s.wrNd i f = some { s with node := fun j => if j = i then f (s.node i) else s.node j } := by
  simp [MemSt.wrNd, h]

/-- the nodes after `lis_malloc` -/
def mallocNodes (s : MemSt) (size r id : Nat) (i : Nat) : MNode :=
  if i = id then ⟨0, (s.node 0).prev, align16 r, r, size⟩
  else { s.node i with
    next := if i = (s.node 0).prev then id else (s.node i).next
    prev := if i = 0 then id else (s.node i).prev }

theorem lisMalloc_eq {s : MemSt} {ids : List Nat} {live : List (Nat × Nat)} (h : MemInv s ids live)
    {size r id : Nat} (hr : r ≠ 0) (hid : FreshNode s id) :
    lisMalloc s size r id = some (align16 r, { s with
      alive := fun i => i == id || s.alive i, node := mallocNodes s size r id, raw := s.raw ++ [(r, size + 16)] }) := by
  have a0 : s.alive 0 = true := h.alive 0 List.mem_cons_self
  have id0 : id ≠ 0 := by rintro rfl; unfold FreshNode at hid; rw [a0] at hid; simp at hid
  have ht : s.alive (s.node 0).prev = true := by
    rcases (Path_last h.path).1 with h1 | h1
    · rw [h1.1]; exact a0
    · exact h.alive _ (List.mem_cons_of_mem _ h1)
  have htid : (s.node 0).prev ≠ id := by
    rintro e; unfold FreshNode at hid; rw [← e, ht] at hid; simp at hid
  have id0' : (0 : Nat) ≠ id := Ne.symm id0
  unfold lisMalloc MemSt.cmalloc
  rw [if_neg hr]
  simp only [MemSt.wrNd, MemSt.nd, beq_self_eq_true, Bool.true_or, if_true, a0, ht, Bool.or_true, Option.bind_eq_bind,
    Option.bind_some, if_neg id0', if_neg htid, if_neg (Ne.symm htid), Option.pure_def, Option.some.injEq, Prod.mk.injEq, true_and]
  congr 1
  funext i
  unfold mallocNodes
  by_cases h1 : i = id
  · subst h1
    simp [Ne.symm htid, id0]
  · by_cases h2 : i = 0
    · subst h2
      by_cases h3 : (s.node 0).prev = 0
      · simp [h1, h3]
      · simp [h1, Ne.symm h3]
    · by_cases h3 : i = (s.node 0).prev
      · subst h3
        simp [h1, h2]
      · simp [h1, h2, h3]

theorem RawOK_append {raw : List (Nat × Nat)} (h : RawOK raw) {r n : Nat} (hr : r ≠ 0) (hn : 0 < n)
    (hd : ∀ b ∈ raw, r + n ≤ b.1 ∨ b.1 + b.2 ≤ r) : RawOK (raw ++ [(r, n)]) := by
  constructor
  · intro b hb
    rcases List.mem_append.mp hb with hb | hb
    · exact h.pos b hb
    · rw [List.mem_singleton.mp hb]; exact ⟨hr, hn⟩
  · rw [List.pairwise_append]
    refine ⟨h.disj, List.pairwise_singleton _ _, ?_⟩
    intro a ha b hb
    rw [List.mem_singleton.mp hb]
    exact (hd a ha).symm

theorem MemInv_malloc {s : MemSt} {ids : List Nat} {live : List (Nat × Nat)} (h : MemInv s ids live)
    {size r id : Nat} (hr : FreshBlock s r (size + 16)) (hid : FreshNode s id) (mem : Nat → Nat) :
    MemInv ⟨fun i => i == id || s.alive i, mallocNodes s size r id, s.raw ++ [(r, size + 16)], mem⟩
      (ids ++ [id]) (live ++ [(align16 r, size)]) := by
  have a0 : s.alive 0 = true := h.alive 0 List.mem_cons_self
  have id0 : id ≠ 0 := by rintro rfl; unfold FreshNode at hid; rw [a0] at hid; simp at hid
  have hidn : id ∉ ids := fun hi => by
    have := h.alive id (List.mem_cons_of_mem _ hi)
    unfold FreshNode at hid; rw [this] at hid; simp at hid
  have hn := List.nodup_cons.mp h.nodup
  have hother : ∀ i ∈ ids, (mallocNodes s size r id i).address = (s.node i).address ∧
      (mallocNodes s size r id i).real = (s.node i).real ∧ (mallocNodes s size r id i).size = (s.node i).size := by
    intro i hi
    have : i ≠ id := fun e => hidn (e ▸ hi)
    simp [mallocNodes, this]
  have hself : mallocNodes s size r id id = ⟨0, (s.node 0).prev, align16 r, r, size⟩ := by simp [mallocNodes]
  have hlast := Path_last h.path
  have htid : (s.node 0).prev ≠ id := by
    rcases hlast.1 with h1 | h1
    · rw [h1.1]; exact Ne.symm id0
    · exact fun e => hidn (e ▸ h1)
  constructor
  · rw [Path_append]
    refine ⟨Path_reend h.path h.nodup ?_ ?_ ?_ ?_, ?_, ?_⟩
    · simp [mallocNodes, htid]
    · simp [mallocNodes]
    · rintro i hi hi2
      have : i ≠ id := by
        rcases hi with rfl | hi
        · exact Ne.symm id0
        · exact fun e => hidn (e ▸ hi)
      simp [mallocNodes, this, hi2]
    · intro i hi
      have h1 : i ≠ id := fun e => hidn (e ▸ hi)
      have h2 : i ≠ 0 := fun e => hn.1 (e ▸ hi)
      simp [mallocNodes, h1, h2]
    · simp [mallocNodes]
    · simp [mallocNodes, Ne.symm id0]
  · rw [← List.cons_append, List.nodup_append]
    refine ⟨h.nodup, by simp, ?_⟩
    intro a ha b hb
    rw [List.mem_singleton.mp hb]
    rcases List.mem_cons.mp ha with rfl | ha
    · exact Ne.symm id0
    · exact fun e => hidn (e ▸ ha)
  · intro i hi
    rw [← List.cons_append] at hi
    rcases List.mem_append.mp hi with hi | hi
    · simp [h.alive i hi]
    · simp [List.mem_singleton.mp hi]
  · simp [mallocNodes, Ne.symm id0, h.top]
  · exact RawOK_append h.raw hr.1 hr.2.1 hr.2.2
  · rw [List.map_append, h.blk]
    congr 1
    · exact List.map_congr_left fun i hi => by
        have := hother i hi
        simp only [this.1, this.2.2]
    · simp [hself]
  · intro i hi
    rcases List.mem_append.mp hi with hi | hi
    · have := hother i hi
      simp only [this.1, this.2.1]
      exact h.al i hi
    · rw [List.mem_singleton.mp hi]
      simp only [hself]
  · rw [List.map_append]
    refine (h.own.append_right _).trans ?_
    refine List.Perm.of_eq ?_
    congr 1
    · exact List.map_congr_left fun i hi => by
        have := hother i hi
        simp only [this.2.1, this.2.2]
    · simp [hself]

/-- the user's bytes do not matter for the invariant -/
theorem MemInv_mem {s : MemSt} {ids : List Nat} {live : List (Nat × Nat)} (h : MemInv s ids live) (mem : Nat → Nat) :
    MemInv { s with mem := mem } ids live :=
  ⟨h.path, h.nodup, h.alive, h.top, h.raw, h.blk, h.al, h.own⟩


theorem raw_unique {raw : List (Nat × Nat)} (h : RawOK raw) {a b : Nat × Nat} (ha : a ∈ raw) (hb : b ∈ raw)
    (he : a.1 = b.1) : a = b := by
  by_contra hne
  have := @List.Pairwise.forall _ _ _ ⟨fun i j h => Or.symm h⟩ h.disj _ ha _ hb hne
  have := (h.pos a ha).2
  have := (h.pos b hb).2
  omega

theorem cfree_eq {s : MemSt} (h : RawOK s.raw) {b : Nat × Nat} (hb : b ∈ s.raw) :
    s.cfree b.1 = some { s with raw := s.raw.erase b } := by
  unfold MemSt.cfree
  rw [if_neg (h.pos b hb).1]
  cases hf : s.raw.find? (fun c => c.1 = b.1) with
  | none =>
    have := List.find?_eq_none.mp hf b hb
    simp at this
  | some c =>
    have h1 := List.mem_of_find?_eq_some hf
    have h2 : c.1 = b.1 := by simpa using List.find?_some hf
    rw [raw_unique h h1 hb h2]

theorem cfree_mk {al : Nat → Bool} {nd : Nat → MNode} {raw : List (Nat × Nat)} {mem : Nat → Nat} (h : RawOK raw) {a n : Nat}
    (hb : (a, n) ∈ raw) : (MemSt.mk al nd raw mem).cfree a = some ⟨al, nd, raw.erase (a, n), mem⟩ :=
  cfree_eq (s := ⟨al, nd, raw, mem⟩) h hb

theorem RawOK_erase {raw : List (Nat × Nat)} (h : RawOK raw) (b : Nat × Nat) : RawOK (raw.erase b) :=
  ⟨fun c hc => h.pos c (List.mem_of_mem_erase hc), h.disj.sublist List.erase_sublist⟩

/-- the nodes after node `x` was taken out -/
def freeNodes (nd : Nat → MNode) (x i : Nat) : MNode :=
  { nd i with
    prev := if i = (nd x).next then (nd x).prev else (nd i).prev
    next := if i = (nd x).prev then (nd x).next else (nd i).next }

theorem MemInv_free {s : MemSt} {l1 l2 : List Nat} {x : Nat} {live : List (Nat × Nat)}
    (h : MemInv s (l1 ++ x :: l2) live) :
    lisFree s (s.node x).address = some { s with
      alive := fun i => i != x && s.alive i, node := freeNodes s.node x,
      raw := s.raw.erase ((s.node x).real, (s.node x).size + 16) } ∧
    MemInv { s with
      alive := fun i => i != x && s.alive i, node := freeNodes s.node x,
      raw := s.raw.erase ((s.node x).real, (s.node x).size + 16) } (l1 ++ l2)
      ((l1 ++ l2).map fun i => ((s.node i).address, (s.node i).size)) := by
  have hx : x ∈ l1 ++ x :: l2 := by simp
  obtain ⟨p1, p2⟩ := Path_append.mp h.path
  have hnd := h.nodup
  have hn : (0 :: l1).Nodup ∧ (x :: l2).Nodup ∧ ∀ a ∈ 0 :: l1, ∀ b ∈ x :: l2, a ≠ b := by
    rw [← List.cons_append, List.nodup_append] at hnd
    exact hnd
  obtain ⟨n1, n2, n3⟩ := hn
  have n2' := List.nodup_cons.mp n2
  have hprev := Path_last p1
  have hnext := Path_first p2
  have hprev_mem : (s.node x).prev ∈ 0 :: l1 := by
    rcases hprev.1 with h1 | h1
    · rw [h1.1]; exact List.mem_cons_self
    · exact List.mem_cons_of_mem _ h1
  have hnext_mem : (s.node x).next = 0 ∨ (s.node x).next ∈ l2 := by
    rcases hnext.1 with h1 | h1
    · exact .inl h1.1
    · exact .inr h1
  have hx0 : x ≠ 0 := fun e => n3 0 List.mem_cons_self x List.mem_cons_self e.symm
  have hnx : (s.node x).next ≠ x := by
    rcases hnext_mem with h1 | h1
    · rw [h1]; exact Ne.symm hx0
    · exact fun e => n2'.1 (e ▸ h1)
  have hpx : (s.node x).prev ≠ x := n3 _ hprev_mem x List.mem_cons_self
  have al_next : s.alive (s.node x).next = true := by
    rcases hnext_mem with h1 | h1
    · rw [h1]; exact h.alive 0 List.mem_cons_self
    · exact h.alive _ (List.mem_cons_of_mem _ (List.mem_append_right _ (List.mem_cons_of_mem _ h1)))
  have al_prev : s.alive (s.node x).prev = true := by
    refine h.alive _ ?_
    rcases List.mem_cons.mp hprev_mem with h1 | h1
    · rw [h1]; exact List.mem_cons_self
    · exact List.mem_cons_of_mem _ (List.mem_append_left _ h1)
  have al_x : s.alive x = true := h.alive x (List.mem_cons_of_mem _ hx)
  have hraw : ((s.node x).real, (s.node x).size + 16) ∈ s.raw :=
    h.own.mem_iff.mpr (List.mem_map.mpr ⟨x, hx, rfl⟩)
  constructor
  · obtain ⟨ma, hs, hma⟩ := Ok_memSearch h (s.node x).address
    have hma' : ma = x := by
      rcases hma with ⟨h1, h2⟩ | ⟨_, h2⟩
      · exact h.addr_inj h1 hx h2
      · exact absurd rfl (h2 x hx)
    subst hma'
    unfold lisFree
    simp only [hs, Option.bind_eq_bind, Option.bind_some, nd_some al_x]
    rw [if_pos (h.addr_ne hx), wrNd_some _ al_next]
    simp only [Option.bind_some, MemSt.nd, al_x, if_true, if_neg (Ne.symm hnx)]
    simp only [MemSt.wrNd, al_prev, if_true, Option.bind_some]
    rw [cfree_mk h.raw hraw]
    simp only [Option.bind_some, Option.pure_def, Option.some.injEq]
    congr 1
    funext i
    unfold freeNodes
    by_cases h1 : i = (s.node ma).prev
    · subst h1
      by_cases h2 : (s.node ma).prev = (s.node ma).next
      · simp [h2]
      · simp [h2]
    · by_cases h2 : i = (s.node ma).next
      · subst h2
        simp [h1]
      · simp [h1, h2]
  · constructor
    · have rest : ∀ c, (s.node x).next = c → (freeNodes s.node x c).prev = (s.node x).prev →
          Path (freeNodes s.node x) 0 l1 c := by
        intro c hc hcp
        refine Path_reend p1 n1 ?_ hcp ?_ ?_
        · simp [freeNodes, hc]
        · intro i _ hi
          simp [freeNodes, hi]
        · intro i hi
          have : i ≠ (s.node x).next := by
            rcases hnext_mem with h1 | h1
            · rw [h1]; exact fun e => (List.nodup_cons.mp n1).1 (e ▸ hi)
            · exact n3 i (List.mem_cons_of_mem _ hi) _ (List.mem_cons_of_mem _ h1)
          simp [freeNodes, this]
      cases l2 with
      | nil =>
        rw [List.append_nil]
        exact rest 0 p2.1 (by simp [freeNodes, p2.1])
      | cons y l2 =>
        rw [Path_append]
        refine ⟨rest y p2.1 (by simp [freeNodes, p2.1]), Path_congr p2.2.2 ?_ ?_⟩
        · intro i hi
          have : i ≠ (s.node x).prev := by
            have hi' : i ∈ x :: y :: l2 := by
              rcases hi with rfl | hi
              · simp
              · simp [hi]
            exact fun e => n3 _ hprev_mem i hi' e.symm
          simp [freeNodes, this]
        · intro i hi
          have : i ≠ (s.node x).next := by
            rw [p2.1]
            rcases hi with rfl | hi
            · exact n3 0 List.mem_cons_self y (by simp)
            · exact fun e => (List.nodup_cons.mp n2'.2).1 (e ▸ hi)
          simp [freeNodes, this]
    · exact hnd.sublist (by simp)
    · intro i hi
      have hix : i ≠ x := by
        rcases List.mem_cons.mp hi with rfl | hi
        · exact Ne.symm hx0
        · rcases List.mem_append.mp hi with hi | hi
          · exact n3 i (List.mem_cons_of_mem _ hi) x List.mem_cons_self
          · exact fun e => n2'.1 (e ▸ hi)
      have : s.alive i = true := by
        refine h.alive i ?_
        rcases List.mem_cons.mp hi with rfl | hi
        · exact List.mem_cons_self
        · rcases List.mem_append.mp hi with hi | hi
          · exact List.mem_cons_of_mem _ (List.mem_append_left _ hi)
          · exact List.mem_cons_of_mem _ (List.mem_append_right _ (List.mem_cons_of_mem _ hi))
      simp [hix, this]
    · exact h.top
    · exact RawOK_erase h.raw _
    · rfl
    · intro i hi
      refine h.al i ?_
      rcases List.mem_append.mp hi with hi | hi
      · exact List.mem_append_left _ hi
      · exact List.mem_append_right _ (List.mem_cons_of_mem _ hi)
    · have e := h.own.erase ((s.node x).real, (s.node x).size + 16)
      refine e.trans ?_
      rw [List.map_append, List.map_cons]
      have e2 : (l1.map (fun i => ((s.node i).real, (s.node i).size + 16)) ++
          ((s.node x).real, (s.node x).size + 16) :: l2.map (fun i => ((s.node i).real, (s.node i).size + 16))).Perm
          (((s.node x).real, (s.node x).size + 16) :: (l1 ++ l2).map (fun i => ((s.node i).real, (s.node i).size + 16))) := by
        rw [List.map_append]
        exact List.perm_middle
      refine (e2.erase _).trans ?_
      rw [List.erase_cons_head]
      exact List.Perm.of_eq rfl

theorem within_of {s : MemSt} {b : Nat × Nat} (hb : b ∈ s.raw) {a n : Nat} (h1 : b.1 ≤ a) (h2 : a + n ≤ b.1 + b.2) :
    s.within a n = true := by
  unfold MemSt.within
  exact List.any_eq_true.mpr ⟨b, hb, by simp [h1, h2]⟩

theorem MemInv_realloc {s : MemSt} {l1 l2 : List Nat} {x : Nat} {live : List (Nat × Nat)}
    (h : MemInv s (l1 ++ x :: l2) live) {size r : Nat} (hr : FreshBlock s r (size + 16))
    (hsz : align16 r + (s.node x).size ≤ r + (size + 16)) :
    ∃ s', lisRealloc s (s.node x).address size r = some (align16 r, s') ∧
    MemInv s' (l1 ++ x :: l2) ((l1.map fun i => ((s.node i).address, (s.node i).size)) ++ (align16 r, size) ::
      l2.map fun i => ((s.node i).address, (s.node i).size)) ∧
    s'.mem = (fun i => if align16 r ≤ i ∧ i < align16 r + (s.node x).size then
      s.mem ((s.node x).address + (i - align16 r)) else s.mem i) := by
  have hx : x ∈ l1 ++ x :: l2 := by simp
  have al_x : s.alive x = true := h.alive x (List.mem_cons_of_mem _ hx)
  have hraw : ((s.node x).real, (s.node x).size + 16) ∈ s.raw :=
    h.own.mem_iff.mpr (List.mem_map.mpr ⟨x, hx, rfl⟩)
  have hR := RawOK_append h.raw hr.1 hr.2.1 hr.2.2
  obtain ⟨ma, hs, hma⟩ := Ok_memSearch h (s.node x).address
  have hma' : ma = x := by
    rcases hma with ⟨h1, h2⟩ | ⟨_, h2⟩
    · exact h.addr_inj h1 hx h2
    · exact absurd rfl (h2 x hx)
  subst hma'
  have hnd : (l1 ++ ma :: l2).Nodup := (List.nodup_cons.mp h.nodup).2
  have hne1 : ∀ i ∈ l1, i ≠ ma := fun i hi => (List.nodup_append.mp hnd).2.2 i hi ma List.mem_cons_self
  have hne2 : ∀ i ∈ l2, i ≠ ma := fun i hi e =>
    (List.nodup_cons.mp (List.nodup_append.mp hnd).2.1).1 (e ▸ hi)
  have hal := align16_le r
  have hax := align16_le (s.node ma).real
  rw [← h.al ma hx] at hax
  unfold lisRealloc
  simp only [hs, Option.bind_eq_bind, Option.bind_some, nd_some al_x, MemSt.cmalloc, if_neg hr.1]
  rw [if_pos (h.addr_ne hx)]
  unfold MemSt.memcpy
  rw [if_pos ⟨within_of (s := { s with raw := s.raw ++ [(r, size + 16)] }) (b := (r, size + 16)) (by simp) (by simp; omega)
      (by simp; omega),
    within_of (s := { s with raw := s.raw ++ [(r, size + 16)] }) (b := ((s.node ma).real, (s.node ma).size + 16))
      (List.mem_append_left _ hraw) (by simp; omega) (by simp; omega)⟩]
  simp only [Option.bind_some]
  rw [cfree_eq (s := { s with raw := s.raw ++ [(r, size + 16)], mem := _ }) hR (List.mem_append_left _ hraw)]
  simp only [Option.bind_some, MemSt.wrNd, al_x, if_true, Option.pure_def, Option.some.injEq, Prod.mk.injEq, true_and]
  refine ⟨_, rfl, ?_, rfl⟩
  constructor
  · refine Path_congr h.path ?_ ?_ <;> intro i _ <;> by_cases hi : i = ma <;> simp [hi]
  · exact h.nodup
  · exact h.alive
  · have : (0 : Nat) ≠ ma := fun e => (List.nodup_cons.mp h.nodup).1 (e ▸ hx)
    simp [this, h.top]
  · exact RawOK_erase hR _
  · rw [List.map_append, List.map_cons]
    congr 1
    · exact List.map_congr_left fun i hi => by simp [hne1 i hi]
    · congr 1
      · simp
      · exact List.map_congr_left fun i hi => by simp [hne2 i hi]
  · intro i hi
    by_cases h1 : i = ma
    · simp [h1]
    · simp [h1, h.al i hi]
  · have e := (h.own.append_right [(r, size + 16)]).erase ((s.node ma).real, (s.node ma).size + 16)
    refine e.trans ?_
    rw [List.map_append, List.map_cons, List.map_append, List.map_cons]
    have e2 : (l1.map (fun i => ((s.node i).real, (s.node i).size + 16)) ++
          ((s.node ma).real, (s.node ma).size + 16) :: l2.map (fun i => ((s.node i).real, (s.node i).size + 16)) ++
          [(r, size + 16)]).Perm
          (((s.node ma).real, (s.node ma).size + 16) ::
            (l1.map (fun i => ((s.node i).real, (s.node i).size + 16)) ++ (r, size + 16) ::
            l2.map (fun i => ((s.node i).real, (s.node i).size + 16)))) := by
      rw [List.append_assoc, List.cons_append]
      refine List.perm_middle.trans (List.Perm.cons _ ?_)
      exact (List.perm_append_comm (l₁ := l2.map _) (l₂ := [(r, size + 16)])).append_left _
    refine (e2.erase _).trans ?_
    rw [List.erase_cons_head]
    refine List.Perm.of_eq ?_
    congr 1
    · exact List.map_congr_left fun i hi => by simp [hne1 i hi]
    · congr 1
      · simp
      · exact List.map_congr_left fun i hi => by simp [hne2 i hi]


/-- when the old contents do not fit, the copy leaves the new block -/
theorem lisRealloc_none {s : MemSt} {l1 l2 : List Nat} {x : Nat} {live : List (Nat × Nat)}
    (h : MemInv s (l1 ++ x :: l2) live) {size r : Nat} (hr : FreshBlock s r (size + 16))
    (hsz : r + (size + 16) < align16 r + (s.node x).size) : lisRealloc s (s.node x).address size r = none := by
  have hx : x ∈ l1 ++ x :: l2 := by simp
  have al_x : s.alive x = true := h.alive x (List.mem_cons_of_mem _ hx)
  have hR := RawOK_append h.raw hr.1 hr.2.1 hr.2.2
  obtain ⟨ma, hs, hma⟩ := Ok_memSearch h (s.node x).address
  have hma' : ma = x := by
    rcases hma with ⟨h1, h2⟩ | ⟨_, h2⟩
    · exact h.addr_inj h1 hx h2
    · exact absurd rfl (h2 x hx)
  subst hma'
  have hal := align16_le r
  unfold lisRealloc
  simp only [hs, Option.bind_eq_bind, Option.bind_some, nd_some al_x, MemSt.cmalloc, if_neg hr.1]
  rw [if_pos (h.addr_ne hx)]
  unfold MemSt.memcpy
  rw [if_neg]
  · rfl
  · rintro ⟨h1, -⟩
    unfold MemSt.within at h1
    obtain ⟨b, hb, h2⟩ := List.any_eq_true.mp h1
    simp only [decide_eq_true_eq] at h2
    have hm : (r, size + 16) ∈ s.raw ++ [(r, size + 16)] := by simp
    by_cases he : b = (r, size + 16)
    · subst he
      simp only at h2
      omega
    · have := @List.Pairwise.forall _ _ _ ⟨fun i j h => Or.symm h⟩ hR.disj _ hb _ hm he
      simp only at this
      omega

/-- every history satisfies the invariant -/
theorem MemHist.inv {s : MemSt} {live : List (Nat × Nat)} (h : MemHist s live) : ∃ ids, MemInv s ids live := by
  have hsplit : ∀ {s : MemSt} {ids : List Nat} {a b : List (Nat × Nat)} {p n : Nat}, MemInv s ids (a ++ (p, n) :: b) →
      ∃ l1 x l2, ids = l1 ++ x :: l2 ∧ (s.node x).address = p ∧ (s.node x).size = n ∧
        a = (l1.map fun i => ((s.node i).address, (s.node i).size)) ∧
        b = (l2.map fun i => ((s.node i).address, (s.node i).size)) := by
    intro s ids a b p n h
    have e := h.blk
    obtain ⟨l1, l', h1, h2, h3⟩ := List.map_eq_append_iff.mp e.symm
    obtain ⟨x, l2, h4, h5, h6⟩ := List.map_eq_cons_iff.mp h3
    simp only [Prod.mk.injEq] at h5
    exact ⟨l1, x, l2, by rw [h1, h4], h5.1, h5.2, h2.symm, h6.symm⟩
  induction h with
  | init mem junk =>
    refine ⟨[], ?_, ?_, ?_, ?_, ?_, ?_, ?_, ?_⟩
    · exact ⟨rfl, rfl⟩
    · simp
    · simp [memInit]
    · rfl
    · exact ⟨by simp [memInit], by simp [memInit]⟩
    · rfl
    · simp
    · exact List.Perm.refl _
  | malloc hh hr hid hm ih =>
    obtain ⟨ids, hi⟩ := ih
    rw [lisMalloc_eq hi hr.1 hid] at hm
    obtain ⟨rfl, rfl⟩ := by simpa using hm
    exact ⟨_, MemInv_malloc hi hr hid _⟩
  | calloc hh hr hid hm ih =>
    obtain ⟨ids, hi⟩ := ih
    unfold lisCalloc at hm
    rw [lisMalloc_eq hi hr.1 hid] at hm
    simp only [Option.bind_eq_bind, Option.bind_some, MemSt.memset0] at hm
    split_ifs at hm
    · obtain ⟨rfl, rfl⟩ := by simpa using hm
      exact ⟨_, MemInv_malloc hi hr hid _⟩
    · simp at hm
  | @realloc s s' a b p old size r q hh hr hm ih =>
    obtain ⟨ids, hi⟩ := ih
    obtain ⟨l1, x, l2, rfl, rfl, rfl, rfl, rfl⟩ := hsplit hi
    by_cases hsz : align16 r + (s.node x).size ≤ r + (size + 16)
    · obtain ⟨s1, h1, h2, -⟩ := MemInv_realloc hi hr hsz
      rw [h1] at hm
      obtain ⟨rfl, rfl⟩ := by simpa using hm
      exact ⟨_, h2⟩
    · rw [lisRealloc_none hi hr (by omega)] at hm
      simp at hm
  | @free s s' a b p n hh hm ih =>
    obtain ⟨ids, hi⟩ := ih
    obtain ⟨l1, x, l2, rfl, rfl, rfl, rfl, rfl⟩ := hsplit hi
    obtain ⟨h1, h2⟩ := MemInv_free hi
    rw [h1] at hm
    obtain rfl := by simpa using hm
    rw [← List.map_append]
    exact ⟨_, h2⟩
  | write hh _ _ ih =>
    obtain ⟨ids, hi⟩ := ih
    exact ⟨ids, MemInv_mem hi _⟩


theorem MemInv.split {s : MemSt} {ids : List Nat} {live : List (Nat × Nat)} (h : MemInv s ids live) {p n : Nat}
    (hp : (p, n) ∈ live) : ∃ l1 x l2, ids = l1 ++ x :: l2 ∧ (s.node x).address = p ∧ (s.node x).size = n := by
  rw [h.blk] at hp
  obtain ⟨x, hx, e⟩ := List.mem_map.mp hp
  obtain ⟨l1, l2, rfl⟩ := List.append_of_mem hx
  simp only [Prod.mk.injEq] at e
  exact ⟨l1, x, l2, rfl, e.1, e.2⟩

/-- **C32** at every point of every history: the blocks the user holds are 16-byte aligned, each lies inside its
own block of the C allocator, no two of them overlap, and the C allocator has as many live blocks as the user
(nothing is leaked). -/
theorem memHist_blocks {s : MemSt} {live : List (Nat × Nat)} (h : MemHist s live) :
    (∀ b ∈ live, b.1 ≠ 0 ∧ b.1 % 16 = 0 ∧ s.within b.1 b.2 = true) ∧
    live.Pairwise (fun a b => a.1 + a.2 ≤ b.1 ∨ b.1 + b.2 ≤ a.1) ∧
    s.raw.length = live.length := by
  obtain ⟨ids, hi⟩ := h.inv
  refine ⟨?_, ?_, ?_⟩
  · rintro ⟨p, n⟩ hb
    obtain ⟨l1, x, l2, rfl, rfl, rfl⟩ := hi.split hb
    have hx : x ∈ l1 ++ x :: l2 := by simp
    have := align16_le (s.node x).real
    rw [← hi.al x hx] at this
    refine ⟨hi.addr_ne hx, this.2.2, ?_⟩
    exact within_of (hi.own.mem_iff.mpr (List.mem_map.mpr ⟨x, hx, rfl⟩)) (by simp; omega) (by simp; omega)
  · rw [hi.blk, List.pairwise_map]
    refine hi.disj_ids.imp_of_mem ?_
    intro i j h1 h2 h3
    have a1 := align16_le (s.node i).real
    have a2 := align16_le (s.node j).real
    rw [← hi.al i h1] at a1
    rw [← hi.al j h2] at a2
    simp only
    omega
  · rw [hi.own.length_eq, hi.blk]
    simp

/-- **C32** `lis_is_malloc` answers whether the user holds a block with this address -/
theorem memHist_isMalloc {s : MemSt} {live : List (Nat × Nat)} (h : MemHist s live) (p : Nat) :
    ∃ b, lisIsMalloc s p = some b ∧ (b = true ↔ ∃ n, (p, n) ∈ live) := by
  obtain ⟨ids, hi⟩ := h.inv
  obtain ⟨ma, h1, h2⟩ := Ok_memSearch hi p
  unfold lisIsMalloc
  rw [h1]
  simp only [Option.bind_eq_bind, Option.bind_some]
  rcases h2 with ⟨h2, h3⟩ | ⟨rfl, h3⟩
  · rw [nd_some (hi.alive ma (List.mem_cons_of_mem _ h2))]
    refine ⟨_, rfl, ?_⟩
    have := hi.addr_ne h2
    rw [hi.blk]
    simp only [bne_iff_ne, ne_eq, this, not_false_eq_true, true_iff]
    exact ⟨_, List.mem_map.mpr ⟨ma, h2, by rw [h3]⟩⟩
  · rw [nd_some (hi.alive 0 List.mem_cons_self)]
    refine ⟨_, rfl, ?_⟩
    rw [hi.top, hi.blk]
    simp only [bne_self_eq_false, Bool.false_eq_true, List.mem_map, Prod.mk.injEq, false_iff]
    rintro ⟨n, i, hi1, hi2, -⟩
    exact h3 i hi1 hi2

/-- **C32** an allocation is defined, and changes no byte -/
theorem memHist_malloc {s : MemSt} {live : List (Nat × Nat)} (h : MemHist s live) {size r id : Nat}
    (hr : FreshBlock s r (size + 16)) (hid : FreshNode s id) :
    ∃ p s', lisMalloc s size r id = some (p, s') ∧ MemHist s' (live ++ [(p, size)]) ∧ s'.mem = s.mem := by
  obtain ⟨ids, hi⟩ := h.inv
  have := lisMalloc_eq hi (size := size) hr.1 hid
  exact ⟨_, _, this, .malloc h hr hid this, rfl⟩

/-- **C32** `lis_calloc` gives zeros and changes no other byte -/
theorem memHist_calloc {s : MemSt} {live : List (Nat × Nat)} (h : MemHist s live) {size r id : Nat}
    (hr : FreshBlock s r (size + 16)) (hid : FreshNode s id) :
    ∃ p s', lisCalloc s size r id = some (p, s') ∧ MemHist s' (live ++ [(p, size)]) ∧
      (∀ i, i < size → s'.mem (p + i) = 0) ∧
      (∀ b ∈ live, ∀ i, i < b.2 → s'.mem (b.1 + i) = s.mem (b.1 + i)) := by
  obtain ⟨ids, hi⟩ := h.inv
  have hm := lisMalloc_eq hi (size := size) hr.1 hid
  have hal := align16_le r
  have hc : ∃ s', lisCalloc s size r id = some (align16 r, s') ∧
      s'.mem = (fun i => if align16 r ≤ i ∧ i < align16 r + size then 0 else s.mem i) := by
    unfold lisCalloc
    rw [hm]
    simp only [Option.bind_eq_bind, Option.bind_some, MemSt.memset0]
    rw [if_pos (within_of (b := (r, size + 16)) (by simp) (by simp; omega) (by simp; omega))]
    exact ⟨_, rfl, rfl⟩
  obtain ⟨s', h1, h2⟩ := hc
  have hh := MemHist.calloc h hr hid h1
  refine ⟨_, s', h1, hh, ?_, ?_⟩
  · intro i hi'
    rw [h2]
    simp only
    rw [if_pos (by omega)]
  · intro b hb i hi'
    have := (memHist_blocks hh).2.1
    rw [List.pairwise_append] at this
    have := this.2.2 b hb (align16 r, size) (by simp)
    simp only at this
    rw [h2]
    simp only
    rw [if_neg (by omega)]

/-- **C32** `lis_realloc` to a larger or equal size is defined, keeps the contents of the block and changes no
other block -/
theorem memHist_realloc {s : MemSt} {a b : List (Nat × Nat)} {p old : Nat} (h : MemHist s (a ++ (p, old) :: b))
    {size r : Nat} (hr : FreshBlock s r (size + 16)) (hsz : old ≤ size) :
    ∃ q s', lisRealloc s p size r = some (q, s') ∧ MemHist s' (a ++ (q, size) :: b) ∧
      (∀ i, i < old → s'.mem (q + i) = s.mem (p + i)) ∧
      (∀ c ∈ a ++ b, ∀ i, i < c.2 → s'.mem (c.1 + i) = s.mem (c.1 + i)) := by
  obtain ⟨ids, hi⟩ := h.inv
  obtain ⟨l1, x, l2, rfl, rfl, rfl⟩ := hi.split (p := p) (n := old) (by simp)
  have hal := align16_le r
  obtain ⟨s', h1, -, h3⟩ := MemInv_realloc hi hr (by omega)
  have hh := MemHist.realloc h hr h1
  refine ⟨_, s', h1, hh, ?_, ?_⟩
  · intro i hi'
    rw [h3]
    simp only
    rw [if_pos (by omega)]
    congr 1
    omega
  · intro c hc i hi'
    have hp := (memHist_blocks hh).2.1
    rw [List.pairwise_append, List.pairwise_cons] at hp
    have hd : c.1 + c.2 ≤ align16 r ∨ align16 r + size ≤ c.1 := by
      rcases List.mem_append.mp hc with hc | hc
      · exact hp.2.2 c hc _ List.mem_cons_self
      · exact (hp.2.1.1 c hc).symm
    rw [h3]
    simp only
    rw [if_neg (by omega)]

/-- **C32** a negative result: when the block is made smaller, so that the old contents no longer fit into the new
block, `lis_realloc` copies out of bounds. -/
theorem memHist_realloc_shrink {s : MemSt} {a b : List (Nat × Nat)} {p old : Nat} (h : MemHist s (a ++ (p, old) :: b))
    {size r : Nat} (hr : FreshBlock s r (size + 16)) (hsz : size + 16 < old) : lisRealloc s p size r = none := by
  obtain ⟨ids, hi⟩ := h.inv
  obtain ⟨l1, x, l2, rfl, rfl, rfl⟩ := hi.split (p := p) (n := old) (by simp)
  have hal := align16_le r
  exact lisRealloc_none hi hr (by omega)

/-- **C32** freeing a block the user holds is defined, gives it back to the C allocator, and changes no byte; it is
no longer tracked. -/
theorem memHist_free {s : MemSt} {a b : List (Nat × Nat)} {p n : Nat} (h : MemHist s (a ++ (p, n) :: b)) :
    ∃ s', lisFree s p = some s' ∧ MemHist s' (a ++ b) ∧ s'.mem = s.mem ∧ s'.raw.length + 1 = s.raw.length ∧
      lisIsMalloc s' p = some false := by
  obtain ⟨ids, hi⟩ := h.inv
  obtain ⟨l1, x, l2, rfl, rfl, rfl⟩ := hi.split (p := p) (n := n) (by simp)
  obtain ⟨h1, -⟩ := MemInv_free hi
  have hh := MemHist.free h h1
  refine ⟨_, h1, hh, rfl, ?_, ?_⟩
  · have e1 := (memHist_blocks hh).2.2
    have e2 := (memHist_blocks h).2.2
    rw [e1, e2]
    simp
    omega
  · obtain ⟨t, e1, e2⟩ := memHist_isMalloc hh (s.node x).address
    rw [e1]
    cases t with
    | false => rfl
    | true =>
      exfalso
      obtain ⟨m, hm⟩ := e2.mp rfl
      have hb := memHist_blocks h
      have hp := hb.2.1
      have hz := hb.1 ((s.node x).address, (s.node x).size) (by simp)
      obtain ⟨ids', hi'⟩ := h.inv
      have hn : (a ++ ((s.node x).address, (s.node x).size) :: b).map Prod.fst |>.Nodup := by
        rw [hi'.blk, List.map_map]
        refine (List.nodup_cons.mp hi'.nodup).2.map_on ?_
        intro i h1 j h2 h3
        exact hi'.addr_inj h1 h2 h3
      rw [List.map_append, List.map_cons, List.nodup_append, List.nodup_cons] at hn
      rcases List.mem_append.mp hm with hm | hm
      · exact hn.2.2 _ (List.mem_map.mpr ⟨_, hm, rfl⟩) _ List.mem_cons_self rfl
      · exact hn.2.1.1 (List.mem_map.mpr ⟨_, hm, rfl⟩)

/-- **C32** `lis_free(NULL)` does nothing -/
theorem memHist_free_null {s : MemSt} {live : List (Nat × Nat)} (h : MemHist s live) : lisFree s 0 = some s := by
  obtain ⟨ids, hi⟩ := h.inv
  obtain ⟨ma, h1, h2⟩ := Ok_memSearch hi 0
  unfold lisFree
  rw [h1]
  simp only [Option.bind_eq_bind, Option.bind_some]
  rcases h2 with ⟨h2, h3⟩ | ⟨rfl, -⟩
  · exact absurd h3 (hi.addr_ne h2)
  · rw [nd_some (hi.alive 0 List.mem_cons_self)]
    simp [hi.top, MemSt.cfree]


/-! ## `lis_free_all` and failed allocations -/

theorem Ok_freeAllLoop (live : List (Nat × Nat)) : ∀ (l : List Nat) (a : Nat) (s : MemSt), Path s.node a l 0 → (0 :: l).Nodup →
    (∀ i ∈ 0 :: l, s.alive i = true) → (∀ i ∈ l, (s.node i).address ≠ 0) → (s.node 0).address = 0 →
    Ok (whileL (fun x : MemSt × Nat => (x.1.nd x.2).bind fun m => some (m.address != 0))
    (fun x => do
      let m ← x.1.nd x.2
      let bak := m.next
      let s ← x.1.wrNd x.2 fun m => { m with real := 0 }
      pure (s, bak)) (s, (s.node a).next)) fun x => x.1.raw = s.raw ∧ x.1.mem = s.mem ∧ x.1.alive = s.alive := by
  intro l
  induction l with
  | nil =>
    intro a s hp _ hal _ htop
    rw [hp.1, whileL]
    simp only [nd_some (hal 0 List.mem_cons_self), Option.bind_some, htop, bne_self_eq_false]
    exact ⟨_, rfl, rfl, rfl, rfl⟩
  | cons x l ih =>
    intro a s hp hnd hal haddr htop
    obtain ⟨p1, p2, p3⟩ := hp
    have ax := hal x (by simp)
    have hx := haddr x List.mem_cons_self
    rw [p1, whileL]
    simp only [nd_some ax, Option.bind_some, Option.bind_eq_bind, wrNd_some _ ax, Option.pure_def]
    rw [show ((s.node x).address != 0) = true by simpa using hx]
    simp only
    have h0 : (0 : Nat) ≠ x := fun e => (List.nodup_cons.mp hnd).1 (e ▸ List.mem_cons_self)
    have hxn : x ∉ l := (List.nodup_cons.mp (List.nodup_cons.mp hnd).2).1
    have := ih x { s with node := fun j => if j = x then { s.node x with real := 0 } else s.node j } ?_ ?_ ?_ ?_ ?_
    · refine (show Ok _ _ from ?_)
      have e : ((fun j => if j = x then { s.node x with real := 0 } else s.node j) x).next = (s.node x).next := by simp
      rw [e] at this
      exact this
    · refine Path_congr p3 ?_ ?_ <;> intro i _ <;> by_cases hi : i = x <;> simp [hi]
    · exact hnd.sublist (by simp)
    · intro i hi
      exact hal i (by rcases List.mem_cons.mp hi with rfl | hi <;> simp [*])
    · intro i hi
      have : i ≠ x := fun e => hxn (e ▸ hi)
      simp only [if_neg this]
      exact haddr i (List.mem_cons_of_mem _ hi)
    · simp [h0, htop]

/-- **C32** a negative result: `lis_free_all`, called by `lis_finalize`, gives none of the blocks back to the C
allocator; it only forgets them. -/
theorem memHist_freeAll {s : MemSt} {live : List (Nat × Nat)} (h : MemHist s live) :
    ∃ s', lisFreeAll s = some s' ∧ s'.raw = s.raw ∧ s'.mem = s.mem ∧ ∀ p, lisIsMalloc s' p = some false := by
  obtain ⟨ids, hi⟩ := h.inv
  unfold lisFreeAll
  have a0 := hi.alive 0 List.mem_cons_self
  rw [nd_some a0]
  simp only [Option.bind_eq_bind, Option.bind_some]
  obtain ⟨⟨s1, ma⟩, h1, h2, h3, h4⟩ := Ok_freeAllLoop live ids 0 s hi.path hi.nodup hi.alive
    (fun i hi' => hi.addr_ne hi') hi.top
  simp only [Option.bind_eq_bind] at h1 h2 h3 h4
  rw [h1]
  simp only [Option.bind_some]
  rw [wrNd_some _ (by rw [h4]; exact a0)]
  refine ⟨_, rfl, h2, h3, fun p => ?_⟩
  unfold lisIsMalloc memSearch
  simp only [MemSt.nd, h4, a0, if_true, Option.bind_eq_bind, Option.bind_some]
  rw [whileL]
  simp [h4, a0]

/-- the nodes form a circular list -/
structure ListOK (s : MemSt) (ids : List Nat) : Prop where
  path : Path s.node 0 ids 0
  nodup : (0 :: ids).Nodup
  alive : ∀ i ∈ 0 :: ids, s.alive i = true
  top : (s.node 0).address = 0

theorem ListOK.malloc {s : MemSt} {ids : List Nat} (h : ListOK s ids) {size r id : Nat} (hid : FreshNode s id) :
    ∃ s', lisMalloc s size r id = some (align16 r, s') ∧ ListOK s' (ids ++ [id]) ∧ 
      (s'.node id).address = align16 r ∧ (∀ i ∈ ids, (s'.node i).address = (s.node i).address) := by
  have a0 : s.alive 0 = true := h.alive 0 List.mem_cons_self
  have id0 : id ≠ 0 := by rintro rfl; unfold FreshNode at hid; rw [a0] at hid; simp at hid
  have ht : s.alive (s.node 0).prev = true := by
    rcases (Path_last h.path).1 with h1 | h1
    · rw [h1.1]; exact a0
    · exact h.alive _ (List.mem_cons_of_mem _ h1)
  have htid : (s.node 0).prev ≠ id := by
    rintro e; unfold FreshNode at hid; rw [← e, ht] at hid; simp at hid
  have id0' : (0 : Nat) ≠ id := Ne.symm id0
  have hidn : id ∉ ids := fun hi => by
    have := h.alive id (List.mem_cons_of_mem _ hi)
    unfold FreshNode at hid; rw [this] at hid; simp at hid
  have hn := List.nodup_cons.mp h.nodup
  have heq : lisMalloc s size r id = some (align16 r, { s.cmalloc r (size + 16) with
      alive := fun i => i == id || s.alive i, node := mallocNodes s size r id }) := by
    have hc : (s.cmalloc r (size + 16)).alive = s.alive ∧ (s.cmalloc r (size + 16)).node = s.node := by
      unfold MemSt.cmalloc; split_ifs <;> exact ⟨rfl, rfl⟩
    unfold lisMalloc
    simp only [MemSt.wrNd, MemSt.nd, hc.1, hc.2, beq_self_eq_true, Bool.true_or, if_true, a0, ht, Bool.or_true,
      Option.bind_eq_bind,
      Option.bind_some, if_neg id0', if_neg htid, if_neg (Ne.symm htid), Option.pure_def, Option.some.injEq,
      Prod.mk.injEq, true_and]
    congr 1
    funext i
    unfold mallocNodes
    by_cases h1 : i = id
    · subst h1
      simp [Ne.symm htid, id0]
    · by_cases h2 : i = 0
      · subst h2
        by_cases h3 : (s.node 0).prev = 0
        · simp [h1, h3]
        · simp [h1, Ne.symm h3]
      · by_cases h3 : i = (s.node 0).prev
        · subst h3
          simp [h1, h2]
        · simp [h1, h2, h3]
  refine ⟨_, heq, ⟨?_, ?_, ?_, ?_⟩, by simp [mallocNodes], ?_⟩
  · rw [Path_append]
    refine ⟨Path_reend h.path h.nodup ?_ ?_ ?_ ?_, ?_, ?_⟩
    · simp [mallocNodes, htid]
    · simp [mallocNodes]
    · rintro i hi hi2
      have : i ≠ id := by
        rcases hi with rfl | hi
        · exact Ne.symm id0
        · exact fun e => hidn (e ▸ hi)
      simp [mallocNodes, this, hi2]
    · intro i hi
      have h1 : i ≠ id := fun e => hidn (e ▸ hi)
      have h2 : i ≠ 0 := fun e => hn.1 (e ▸ hi)
      simp [mallocNodes, h1, h2]
    · simp [mallocNodes]
    · simp [mallocNodes, Ne.symm id0]
  · rw [← List.cons_append, List.nodup_append]
    refine ⟨h.nodup, by simp, ?_⟩
    intro a ha b hb
    rw [List.mem_singleton.mp hb]
    rcases List.mem_cons.mp ha with rfl | ha
    · exact Ne.symm id0
    · exact fun e => hidn (e ▸ ha)
  · intro i hi
    rw [← List.cons_append] at hi
    rcases List.mem_append.mp hi with hi | hi
    · simp [h.alive i hi]
    · simp [List.mem_singleton.mp hi]
  · simp [mallocNodes, Ne.symm id0, h.top]
  · intro i hi
    have : i ≠ id := fun e => hidn (e ▸ hi)
    simp [mallocNodes, this]

theorem lisMalloc_alive {s s' : MemSt} {size r id p : Nat} (h : lisMalloc s size r id = some (p, s')) :
    s'.alive = fun i => i == id || s.alive i := by
  have hw : ∀ {s s' : MemSt} {i : Nat} {f : MNode → MNode}, s.wrNd i f = some s' → s'.alive = s.alive := by
    intro s s' i f h
    unfold MemSt.wrNd at h
    split_ifs at h
    simp only [Option.some.injEq] at h
    rw [← h]
  have hc : (s.cmalloc r (size + 16)).alive = s.alive := by
    unfold MemSt.cmalloc; split_ifs <;> rfl
  unfold lisMalloc at h
  simp only [Option.bind_eq_bind, Option.bind_eq_some_iff, Option.pure_def, Option.some.injEq, Prod.mk.injEq] at h
  obtain ⟨_, h1, _, _, _, h2, _, _, _, h3, _, _, _, h4, _, h5, _, h6, _, h7, _, rfl⟩ := h
  rw [hw h7, hw h6, hw h5, hw h4, hw h3, hw h2, hw h1]
  simp only [hc]

/-- the search ends at the first node whose address is `NULL` or the one looked for -/
theorem ListOK.search {s : MemSt} {ids : List Nat} (h : ListOK s ids) {p x : Nat} {l1 l2 : List Nat}
    (he : ids = l1 ++ x :: l2) (h1 : ∀ i ∈ l1, (s.node i).address ≠ 0 ∧ (s.node i).address ≠ p)
    (hx : (s.node x).address = 0 ∨ (s.node x).address = p) : memSearch s p = some x := by
  unfold memSearch
  rw [nd_some (h.alive 0 List.mem_cons_self)]
  simp only [Option.bind_eq_bind, Option.bind_some]
  have main : ∀ (l : List Nat) (a : Nat), (∀ i ∈ l, i ∈ l1) → Path s.node a (l ++ x :: l2) 0 →
      whileL (fun ma => (s.nd ma).bind fun m => some (m.address != 0 && m.address != p))
        (fun ma => (s.nd ma).bind fun m => some m.next) (s.node a).next = some x := by
    intro l
    induction l with
    | nil =>
      intro a _ hp
      have ax := h.alive x (by rw [he]; simp)
      rw [hp.1, whileL, nd_some ax]
      rcases hx with hx | hx <;> simp [hx]
    | cons y l ih =>
      intro a hl hp
      have hy := h1 y (hl y List.mem_cons_self)
      have ay := h.alive y (by rw [he]; simp [hl y List.mem_cons_self])
      rw [hp.1, whileL, nd_some ay]
      simp only [Option.bind_some]
      rw [show ((s.node y).address != 0 && (s.node y).address != p) = true by simp [hy]]
      simp only
      exact ih y (fun i hi => hl i (List.mem_cons_of_mem _ hi)) hp.2.2
  exact main l1 0 (fun i hi => hi) (he ▸ h.path)

/-- **C32** a negative result: an allocation that fails leaves a node that hides every block allocated after it:
the next block, handed out with its node linked in, is not recognised by `lis_is_malloc`. -/
theorem memHist_failure {s : MemSt} {live : List (Nat × Nat)} (h : MemHist s live) {size size2 r id id2 : Nat}
    (hid : FreshNode s id) (hr : FreshBlock s r (size2 + 16)) (hid2 : FreshNode s id2) (hne : id ≠ id2) :
    ∃ s1 p s2, lisMalloc s size 0 id = some (0, s1) ∧ lisMalloc s1 size2 r id2 = some (p, s2) ∧ p ≠ 0 ∧
      lisIsMalloc s2 p = some false := by
  obtain ⟨ids, hi⟩ := h.inv
  have hl : ListOK s ids := ⟨hi.path, hi.nodup, hi.alive, hi.top⟩
  have ha : align16 0 = 0 := rfl
  obtain ⟨s1, e1, l1, a1, b1⟩ := hl.malloc (size := size) (r := 0) hid
  have hid2' : FreshNode s1 id2 := by
    have hf := lisMalloc_alive e1
    unfold FreshNode
    rw [hf]
    simp only [Bool.or_eq_false_iff]
    exact ⟨by simpa using Ne.symm hne, hid2⟩
  obtain ⟨s2, e2, l2, a2, b2⟩ := l1.malloc (size := size2) (r := r) hid2'
  refine ⟨s1, align16 r, s2, by rw [e1, ha], e2, align16_ne hr.1, ?_⟩
  have hs : memSearch s2 (align16 r) = some id := by
    refine l2.search (l1 := ids) (l2 := [id2]) (by simp) ?_ (.inl ?_)
    · intro i hi'
      rw [b2 i (List.mem_append_left _ hi'), b1 i hi']
      refine ⟨hi.addr_ne hi', ?_⟩
      have hb := hr.2.2 _ (hi.own.mem_iff.mpr (List.mem_map.mpr ⟨i, hi', rfl⟩))
      rw [hi.al i hi']
      have := align16_le r
      have := align16_le (s.node i).real
      simp only at hb
      omega
    · rw [b2 id (by simp), a1, ha]
  unfold lisIsMalloc
  rw [hs]
  simp only [Option.bind_eq_bind, Option.bind_some]
  rw [nd_some (l2.alive id (by simp)), Option.bind_some, b2 id (by simp), a1]
  rfl

/-! ## the hypotheses are met -/

/-- a history: two blocks, the C allocator answering 1000 and 2001 -/
theorem memHist_example : ∃ s, MemHist s ([(1008, 24)] ++ (2016, 40) :: []) ∧ FreshBlock s 3000 (40 + 16) ∧
    FreshBlock s 3000 (8 + 16) ∧ FreshNode s 3 ∧ FreshNode s 4 := by
  have h0 := MemHist.init (fun _ => 7) (fun _ => ⟨0, 0, 0, 0, 0⟩)
  have r1 : FreshBlock (memInit (fun _ => 7) (fun _ => ⟨0, 0, 0, 0, 0⟩)) 1000 (24 + 16) := by
    refine ⟨by decide, by decide, ?_⟩
    intro b hb
    simp [memInit] at hb
  obtain ⟨ids0, i0⟩ := h0.inv
  have e1 := lisMalloc_eq i0 (size := 24) (r := 1000) (id := 1) (by decide) rfl
  have h1 := MemHist.malloc (id := 1) h0 r1 rfl e1
  obtain ⟨ids1, i1⟩ := h1.inv
  have e2 := lisMalloc_eq i1 (size := 40) (r := 2001) (id := 2) (by decide) rfl
  have h2 := MemHist.malloc h1 (r := 2001) (size := 40) (id := 2) ⟨by decide, by decide, by decide⟩ rfl e2
  exact ⟨_, h2, ⟨by decide, by decide, by decide⟩, ⟨by decide, by decide, by decide⟩, rfl, rfl⟩

example : ∃ s, MemHist s ([(1008, 24)] ++ (2016, 40) :: []) ∧ lisRealloc s 2016 8 3000 = none := by
  obtain ⟨s, h, -, hr, -⟩ := memHist_example
  exact ⟨s, h, memHist_realloc_shrink h hr (by decide)⟩

example : ∃ s q s', MemHist s ([(1008, 24)] ++ (2016, 40) :: []) ∧ lisRealloc s 2016 40 3000 = some (q, s') ∧
    MemHist s' ([(1008, 24)] ++ (q, 40) :: []) := by
  obtain ⟨s, h, hr, -⟩ := memHist_example
  obtain ⟨q, s', h1, h2, -⟩ := memHist_realloc h hr le_rfl
  exact ⟨s, q, s', h, h1, h2⟩

end Lis
