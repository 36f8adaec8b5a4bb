import Verif.Spec.EsolverLife
import Verif.Lemmas.Lifetime

/-! # C59: the memory of an eigensolver handle follows the account `ELife`, for every history -/

namespace Lis

/-- a freed block whose name is never used again -/
def Heap.Dead (a : ℕ) (h : Heap) : Prop := a ∉ h.live ∧ a < h.next

theorem Heap.Dead.alloc {a : ℕ} {h : Heap} (hd : h.Dead a) : h.alloc.2.Dead a := by
  refine ⟨fun hm => ?_, Nat.lt_succ_of_lt hd.2⟩
  rcases Multiset.mem_cons.1 hm with e | hm
  · have := hd.2; omega
  · exact hd.1 hm

theorem Heap.Dead.sub {a : ℕ} {h h' : Heap} (hd : h.Dead a) (hl : h'.live ≤ h.live) (hn : h.next ≤ h'.next) : h'.Dead a :=
  ⟨fun hm => hd.1 (Multiset.mem_of_le hl hm), lt_of_lt_of_le hd.2 hn⟩

theorem Heap.free_step {h : Heap} (hf : h.Fresh) {p : Option ℕ} {X : Multiset ℕ} (e : h.live = optBlk p + X) :
    ∃ h', h.free p = some h' ∧ h'.live = X ∧ h'.Fresh ∧ h'.next = h.next ∧ (∀ a, h.Dead a → h'.Dead a) ∧
      ∀ a, p = some a → h'.Dead a := by
  have hle : X ≤ h.live := by rw [e]; exact Multiset.le_add_left _ _
  refine ⟨_, Heap.free_opt e, rfl, Heap.Fresh.sub (m := h.live) (n := h.next) hf hle le_rfl, rfl,
    fun a hd => hd.sub (by exact hle) (by exact le_rfl), ?_⟩
  rintro a rfl
  have hn := hf.nodup
  rw [e] at hn
  have hn' : (a ::ₘ X).Nodup := by simpa [optBlk] using hn
  exact ⟨(Multiset.nodup_cons.1 hn').1, hf.lt a (by rw [e]; simp [optBlk])⟩

/-- the blocks of the work vectors -/
def workBlk : Option (ℕ × List ℕ) → Multiset ℕ
  | none => 0
  | some (w, vs) => (vs : Multiset ℕ) + {w}

/-- what the handle reaches except the arrays -/
def EsolverMem.frame (m : EsolverMem) (base lost : Multiset ℕ) (us : List ℕ) : Multiset ℕ :=
  base + lost + {m.self} + (us : Multiset ℕ) + workBlk m.work

/-- the handle agrees with the account, its arrays being there or all missing -/
structure EMemNormal (base lost : Multiset ℕ) (us : List ℕ) (l : ELife) (m : EsolverMem) (h : Heap) : Prop where
  card : lost.card = l.lost
  fresh : h.Fresh
  sub : m.sub = l.sub
  ss : m.ss = l.ss
  live : h.live = optBlk m.evalue + (optBlk m.resid + (optBlk m.iter + (optBlk m.iter2 + (optBlk m.evecArr +
    (optBlk m.rhistory + m.frame base lost us)))))
  wcard : (workBlk m.work).card = l.work
  vcard : us.length = l.vecs
  null : l.arr = .null → m.evalue = none ∧ m.resid = none ∧ m.iter = none ∧ m.iter2 = none ∧ m.rhistory = none ∧
    m.evector = none ∧ us = [] ∧ m.work = none
  valid : l.arr = .valid → m.evalue.isSome ∧ us.length ≤ l.cap ∧
    ∃ p, m.evector = some (p, us.map some ++ List.replicate (l.cap + 2 - us.length) none)

/-- the handle agrees with the account -/
def EMemInv (base : Multiset ℕ) (l : ELife) (m : EsolverMem) (h : Heap) : Prop :=
  (l.arr ≠ .dangling ∧ ∃ lost us, EMemNormal base lost us l m h) ∨
  (l.arr = .dangling ∧ m.ss = l.ss ∧ ∃ a, m.evalue = some a ∧ h.Dead a)

/-- the outcome of a call agrees with the account -/
def EMemRel (base : Multiset ℕ) (lr : Option (Bool × ELife)) (cr : Option (Bool × EsolverMem × Heap)) : Prop :=
  match lr with
  | none => cr = none
  | some (e, l') => ∃ m' h', cr = some (e, m', h') ∧ EMemInv base l' m' h'

theorem esolverCreate_inv {h : Heap} (hf : h.Fresh) : EMemInv h.live ELife.fresh (esolverCreate h).1 (esolverCreate h).2 := by
  refine .inl ⟨by simp [ELife.fresh], 0, [], rfl, hf.cons, rfl, rfl, ?_, rfl, rfl,
    fun _ => ⟨rfl, rfl, rfl, rfl, rfl, rfl, rfl, rfl⟩, by simp [ELife.fresh]⟩
  show h.next ::ₘ h.live = _
  simp only [← Multiset.singleton_add, optBlk, esolverCreate, EsolverMem.frame, EsolverMem.evecArr, workBlk, Heap.alloc,
    Option.map_none, Multiset.coe_nil]
  abel

/-- an allocation of an array fails: what was allocated in this call is lost -/
theorem EMemNormal.fails {base lost : Multiset ℕ} {us : List ℕ} {l : ELife} {m : EsolverMem} {h h' : Heap}
    (hi : EMemNormal base lost us l m h) (hd : l.arr ≠ .dangling) (N rest : Multiset ℕ) {k : ℕ} (hk : N.card = k)
    (hl : h'.live = N + (rest + m.frame base lost us)) (hr : l.arr = .null → rest = 0) (hf : h'.Fresh)
    (hdead : ∀ a, m.evalue = some a → h'.Dead a) :
    EMemInv base { l with arr := Life.release l.arr, lost := l.lost + k } m h' := by
  cases ha : l.arr with
  | dangling => exact absurd ha hd
  | valid =>
    obtain ⟨h1, -⟩ := hi.valid ha
    obtain ⟨a, ha'⟩ := Option.isSome_iff_exists.1 h1
    exact .inr ⟨rfl, hi.ss, a, ha', hdead a ha'⟩
  | null =>
    obtain ⟨n1, n2, n3, n4, n5, n6, n7, n8⟩ := hi.null ha
    refine .inl ⟨by simp [Life.release], N + lost, us, ?_, hf, hi.sub, hi.ss, ?_, hi.wcard, hi.vcard, fun _ => hi.null ha,
      fun h => by simp [Life.release] at h⟩
    · rw [Multiset.card_add, hi.card, hk]; exact Nat.add_comm _ _
    · rw [hl, hr ha, n1, n2, n3, n4, n5]
      simp only [EsolverMem.evecArr, n6, optBlk, Option.map_none, EsolverMem.frame]
      abel

theorem egesolve_rel {base : Multiset ℕ} {l : ELife} {m : EsolverMem} {h : Heap} (r : ERun) (hi : EMemInv base l m h)
    (hr : r.Sane l.ss) : EMemRel base (l.run r) (egesolve r m h) := by
  unfold ELife.run egesolve
  cases hp : r.paramOk with
  | false => exact ⟨m, h, rfl, hi⟩
  | true =>
  simp only [Bool.not_true, Bool.false_eq_true, if_false]
  rcases hi with ⟨hnd, lost, us, hi⟩ | ⟨hdg, -, a, ha, hdead⟩
  swap
  · rw [if_pos hdg, ha, Heap.free_dead hdead.1]
    rfl
  rw [if_neg hnd]
  obtain ⟨F, hF⟩ : ∃ F, F = m.frame base lost us := ⟨_, rfl⟩
  have hlive := hi.live
  rw [← hF] at hlive
  obtain ⟨h1, e1, l1, f1, -, -, d1⟩ := Heap.free_step hi.fresh hlive
  simp only [e1, Option.bind_eq_bind, Option.bind_some]
  by_cases c1 : r.fail = some .evalue
  · rw [if_pos c1, c1]
    refine ⟨m, h1, rfl, hi.fails hnd 0 (by rfl) (rest := optBlk m.resid + (optBlk m.iter + (optBlk m.iter2 +
      (optBlk m.evecArr + optBlk m.rhistory)))) ?_ ?_ f1 d1⟩
    · rw [l1, hF]; abel
    · intro ha
      obtain ⟨n1, n2, n3, n4, n5, n6, n7, n8⟩ := hi.null ha
      simp [n2, n3, n4, n5, n6, EsolverMem.evecArr, optBlk]
  rw [if_neg c1]
  obtain ⟨h2, e2, l2, f2, -, k2, -⟩ := Heap.free_step (h := h1.alloc.2) f1.cons (p := m.resid)
    (X := {h1.next} + (optBlk m.iter + (optBlk m.iter2 + (optBlk m.evecArr + (optBlk m.rhistory + F)))))
    (by show h1.next ::ₘ h1.live = _; rw [l1, ← Multiset.singleton_add]; abel)
  have d2 : ∀ a, m.evalue = some a → h2.Dead a := fun a ha => k2 a (d1 a ha).alloc
  simp only [e2, Option.bind_some]
  by_cases c2 : r.fail = some .resid
  · rw [if_pos c2, c2]
    refine ⟨m, h2, rfl, hi.fails hnd {h1.next} (by rfl) (rest := optBlk m.iter + (optBlk m.iter2 +
      (optBlk m.evecArr + optBlk m.rhistory))) ?_ ?_ f2 d2⟩
    · rw [l2, hF]; abel
    · intro ha
      obtain ⟨n1, n2, n3, n4, n5, n6, n7, n8⟩ := hi.null ha
      simp [n3, n4, n5, n6, EsolverMem.evecArr, optBlk]
  rw [if_neg c2]
  obtain ⟨h3, e3, l3, f3, -, k3, -⟩ := Heap.free_step (h := h2.alloc.2) f2.cons (p := m.iter)
    (X := {h1.next} + {h2.next} + (optBlk m.iter2 + (optBlk m.evecArr + (optBlk m.rhistory + F))))
    (by show h2.next ::ₘ h2.live = _; rw [l2, ← Multiset.singleton_add]; abel)
  have d3 : ∀ a, m.evalue = some a → h3.Dead a := fun a ha => k3 a (d2 a ha).alloc
  simp only [e3, Option.bind_some]
  by_cases c3 : r.fail = some .iter
  · rw [if_pos c3, c3]
    refine ⟨m, h3, rfl, hi.fails hnd ({h1.next} + {h2.next}) (by rfl) (rest := optBlk m.iter2 +
      (optBlk m.evecArr + optBlk m.rhistory)) ?_ ?_ f3 d3⟩
    · rw [l3, hF]; abel
    · intro ha
      obtain ⟨n1, n2, n3, n4, n5, n6, n7, n8⟩ := hi.null ha
      simp [n4, n5, n6, EsolverMem.evecArr, optBlk]
  rw [if_neg c3]
  obtain ⟨h4, e4, l4, f4, -, k4, -⟩ := Heap.free_step (h := h3.alloc.2) f3.cons (p := m.iter2)
    (X := {h1.next} + {h2.next} + {h3.next} + (optBlk m.evecArr + (optBlk m.rhistory + F)))
    (by show h3.next ::ₘ h3.live = _; rw [l3, ← Multiset.singleton_add]; abel)
  have d4 : ∀ a, m.evalue = some a → h4.Dead a := fun a ha => k4 a (d3 a ha).alloc
  simp only [e4, Option.bind_some]
  by_cases c4 : r.fail = some .iter2
  · rw [if_pos c4, c4]
    refine ⟨m, h4, rfl, hi.fails hnd ({h1.next} + {h2.next} + {h3.next}) (by rfl) (rest :=
      optBlk m.evecArr + optBlk m.rhistory) ?_ ?_ f4 d4⟩
    · rw [l4, hF]; abel
    · intro ha
      obtain ⟨n1, n2, n3, n4, n5, n6, n7, n8⟩ := hi.null ha
      simp [n5, n6, EsolverMem.evecArr, optBlk]
  rw [if_neg c4]
  unfold egesolveVecs
  have l5 : h4.alloc.2.live = {h1.next} + {h2.next} + {h3.next} + {h4.next} + (optBlk m.evecArr + (optBlk m.rhistory + F)) := by
    show h4.next ::ₘ h4.live = _
    rw [l4, ← Multiset.singleton_add]; abel
  have f5 : h4.alloc.2.Fresh := f4.cons
  have d5 : ∀ a, m.evalue = some a → h4.alloc.2.Dead a := fun a ha => (d4 a ha).alloc
  have q1 : h1.alloc.1 = h1.next := rfl
  have q2 : h2.alloc.1 = h2.next := rfl
  have q3 : h3.alloc.1 = h3.next := rfl
  have q4 : h4.alloc.1 = h4.next := rfl
  rw [q1, q2, q3, q4]
  generalize h1.next = ev at *
  generalize h2.next = re at *
  generalize h3.next = it at *
  generalize h4.next = it2 at *
  generalize h4.alloc.2 = h5 at *
  by_cases c5 : r.fail = some .xx
  · rw [if_pos c5, c5]
    refine ⟨m, h5, rfl, hi.fails hnd ({ev} + {re} + {it} + {it2}) (by rfl) (rest :=
      optBlk m.evecArr + optBlk m.rhistory) ?_ ?_ f5 d5⟩
    · rw [l5, hF]; abel
    · intro ha
      obtain ⟨n1, n2, n3, n4, n5, n6, n7, n8⟩ := hi.null ha
      simp [n5, n6, EsolverMem.evecArr, optBlk]
  rw [if_neg c5]
  obtain ⟨h6, e6, l6, f6, -, k6, -⟩ := Heap.free_step (h := h5.alloc.2) f5.cons (p := m.evecArr)
    (X := {ev} + {re} + {it} + {it2} + {h5.next} + (optBlk m.rhistory + F))
    (by show h5.next ::ₘ h5.live = _; rw [l5, ← Multiset.singleton_add]; abel)
  have d6 : ∀ a, m.evalue = some a → h6.Dead a := fun a ha => k6 a (d5 a ha).alloc
  have q5 : h5.alloc.1 = h5.next := rfl
  simp only [e6, Option.bind_eq_bind, Option.bind_some]
  rw [q5]
  generalize h5.next = xx at *
  by_cases c6 : r.fail = some .evector
  · rw [if_pos c6, c6]
    refine ⟨m, h6, rfl, hi.fails hnd ({ev} + {re} + {it} + {it2} + {xx}) (by rfl) (rest := optBlk m.rhistory) ?_ ?_ f6 d6⟩
    · rw [l6, hF]
    · intro ha
      obtain ⟨n1, n2, n3, n4, n5, n6, n7, n8⟩ := hi.null ha
      simp [n5, optBlk]
  rw [if_neg c6]
  unfold egesolveHist
  obtain ⟨h7, e7, l7, f7, -, k7, -⟩ := Heap.free_step (h := h6.alloc.2) f6.cons (p := m.rhistory)
    (X := {ev} + {re} + {it} + {it2} + {xx} + {h6.next} + F)
    (by show h6.next ::ₘ h6.live = _; rw [l6, ← Multiset.singleton_add]; abel)
  have d7 : ∀ a, m.evalue = some a → h7.Dead a := fun a ha => k7 a (d6 a ha).alloc
  have q6 : h6.alloc.1 = h6.next := rfl
  simp only [e7, Option.bind_eq_bind, Option.bind_some]
  rw [q6]
  generalize h6.next = evec at *
  by_cases c7 : r.fail = some .rhistory
  · rw [if_pos c7, c7]
    obtain ⟨h8, e8, l8, f8, -, k8, -⟩ := Heap.free_step f7 (p := some xx)
      (X := {ev} + {re} + {it} + {it2} + {evec} + F) (by rw [l7]; simp only [optBlk]; abel)
    simp only [e8, Option.bind_some]
    refine ⟨m, h8, rfl, hi.fails hnd ({ev} + {re} + {it} + {it2} + {evec}) (by rfl) (rest := 0) ?_ (fun _ => rfl) f8
      fun a ha => k8 a (d7 a ha)⟩
    rw [l8, hF]; abel
  rw [if_neg c7]
  unfold egesolveWork
  have l8 : h7.alloc.2.live = {ev} + {re} + {it} + {it2} + {xx} + {evec} + {h7.next} + F := by
    show h7.next ::ₘ h7.live = _
    rw [l7, ← Multiset.singleton_add]; abel
  have f8 : h7.alloc.2.Fresh := f7.cons
  have q7 : h7.alloc.1 = h7.next := rfl
  rw [q7]
  generalize h7.next = rh at *
  generalize h7.alloc.2 = h8 at *
  by_cases c8 : r.fail = some .work
  · rw [if_pos c8, c8]
    obtain ⟨h9, e9, l9, f9, -, -, -⟩ := Heap.free_step f8 (p := some xx)
      (X := {ev} + {re} + {it} + {it2} + {evec} + {rh} + F) (by rw [l8]; simp only [optBlk]; abel)
    simp only [e9, Option.bind_eq_bind, Option.bind_some]
    refine ⟨_, h9, rfl, .inl ⟨by simp, (us : Multiset ℕ) + lost, [], ?_, f9, hi.sub, hi.ss, ?_, hi.wcard, rfl,
      fun h => by simp at h, fun _ => ⟨rfl, by simp, evec, ?_⟩⟩⟩
    · rw [Multiset.card_add, hi.card, Multiset.coe_card, hi.vcard]; simp only; omega
    · rw [l9, hF]
      simp only [optBlk, EsolverMem.evecArr, Option.map_some, EsolverMem.frame, Multiset.coe_nil]
      abel
    · simp only [hr.2, List.map_nil, List.nil_append, List.length_nil, Nat.sub_zero]
  rw [if_neg c8]
  have hfail : r.fail = none := by
    cases hx : r.fail with
    | none => rfl
    | some s => cases s <;> simp_all
  rw [hfail]
  obtain ⟨-, a1, -, -, -⟩ := Heap.allocN_spec r.nwork h8.alloc.2
  have lenw := (Heap.allocN_spec r.nwork h8.alloc.2).1
  have f9 : (h8.alloc.2.allocN r.nwork).2.Fresh := Heap.Fresh.allocN f8.cons _
  have l9 : h8.alloc.2.live = {h8.next} + h8.live := by show h8.next ::ₘ h8.live = _; rw [Multiset.singleton_add]
  have q8 : h8.alloc.1 = h8.next := rfl
  simp only [q8]
  rw [l9] at a1
  generalize h8.next = w at *
  generalize (h8.alloc.2.allocN r.nwork).1 = vs at *
  generalize (h8.alloc.2.allocN r.nwork).2 = h10 at *
  obtain ⟨lenu, a2, -, -, -⟩ := Heap.allocN_spec r.nvec h10
  have f11 : (h10.allocN r.nvec).2.Fresh := Heap.Fresh.allocN f9 _
  generalize (h10.allocN r.nvec).1 = us' at *
  generalize (h10.allocN r.nvec).2 = h11 at *
  rw [a1, l8] at a2
  have hlen : us'.length ≤ r.junk.length := by
    rw [lenu, hr.2, List.length_replicate]; have := hr.1; omega
  simp only [Option.bind_eq_bind, Option.bind_some, if_pos hlen]
  obtain ⟨h12, e12, l12, f12, -, -, -⟩ := Heap.free_step f11 (p := some xx)
    (X := (us' : Multiset ℕ) + ((vs : Multiset ℕ) + ({w} + ({ev} + {re} + {it} + {it2} + {evec} + {rh} + F))))
    (by rw [a2]; simp only [optBlk]; abel)
  simp only [e12, Option.bind_some]
  refine ⟨_, h12, rfl, .inl ⟨by simp, (us : Multiset ℕ) + lost + workBlk m.work, us', ?_, f12, hi.sub, hi.ss, ?_, ?_, lenu,
    fun h => by simp at h, fun _ => ⟨rfl, ?_, evec, ?_⟩⟩⟩
  · rw [Multiset.card_add, Multiset.card_add, hi.card, Multiset.coe_card, hi.vcard, hi.wcard]; simp only; omega
  · rw [l12, hF]
    simp only [optBlk, EsolverMem.evecArr, Option.map_some, EsolverMem.frame, workBlk]
    abel
  · simp [workBlk, lenw, Nat.add_comm]
  · show us'.length ≤ l.ss
    rw [lenu]; exact hr.1
  · simp only [hr.2, List.drop_replicate]

theorem ecalls_rel {base : Multiset ℕ} : ∀ (cs : List EsolverCall) {l : ELife} {m : EsolverMem} {h : Heap},
    EMemInv base l m h → SaneCalls l.ss cs → match l.calls cs with
      | none => runECalls cs m h = none
      | some (es, l') => ∃ m' h', runECalls cs m h = some (es, m', h') ∧ EMemInv base l' m' h'
  | [], l, m, h, hi, _ => ⟨m, h, rfl, hi⟩
  | c :: cs, l, m, h, hi, hs => by
    have hcall : EMemRel base (l.call c) (c.exec m h) ∧ ∀ e l', l.call c = some (e, l') → SaneCalls l'.ss cs := by
      cases c with
      | opt sub ss =>
        refine ⟨⟨_, h, rfl, ?_⟩, ?_⟩
        · rcases hi with ⟨hnd, lost, us, hi⟩ | ⟨hdg, -, a, ha, hdead⟩
          · exact .inl ⟨hnd, lost, us, hi.card, hi.fresh, rfl, rfl, hi.live, hi.wcard, hi.vcard, hi.null, hi.valid⟩
          · exact .inr ⟨hdg, rfl, a, ha, hdead⟩
        · rintro e l' he
          cases he
          exact hs
      | run r =>
        refine ⟨egesolve_rel r hi hs.1, ?_⟩
        intro e l' he
        have : l'.ss = l.ss := by
          change l.run r = _ at he
          unfold ELife.run at he
          split at he
          · cases he; rfl
          split at he
          · cases he
          split at he <;> (cases he; rfl)
        rw [this]; exact hs.2
    obtain ⟨h1, h2⟩ := hcall
    unfold ELife.calls runECalls
    cases hc : l.call c with
    | none =>
      rw [hc] at h1
      have h1' : c.exec m h = none := h1
      simp only [h1', Option.bind_eq_bind, Option.bind_none]
    | some v =>
      obtain ⟨e, l1⟩ := v
      rw [hc] at h1
      obtain ⟨m1, hp1, e1, hi1⟩ := h1
      simp only [e1, Option.bind_eq_bind, Option.bind_some]
      have := ecalls_rel cs hi1 (h2 _ _ hc)
      cases hc2 : l1.calls cs with
      | none =>
        rw [hc2] at this
        have this' : runECalls cs m1 hp1 = none := this
        simp only [this', Option.bind_none]
      | some v =>
        obtain ⟨es, l2⟩ := v
        rw [hc2] at this
        obtain ⟨m2, hp2, e2, hi2⟩ := this
        simp only [e2, Option.bind_some]
        exact ⟨m2, hp2, rfl, hi2⟩

/-- destroying the stored vectors -/
theorem destroySlots_spec : ∀ (n k : ℕ) (us : List ℕ) {h : Heap} {X : Multiset ℕ}, h.live = (us : Multiset ℕ) + X →
    n ≤ us.length + k → destroySlots h n (us.map some ++ List.replicate k none) =
      some ⟨(us.drop n : List ℕ) + X, h.next⟩
  | 0, k, us, h, X, e, _ => by unfold destroySlots; rw [List.drop_zero, ← e]
  | n + 1, 0, [], h, X, e, hn => by simp at hn
  | n + 1, k + 1, [], h, X, e, hn => by
    rw [List.map_nil, List.nil_append, List.replicate_succ]
    unfold destroySlots
    have := destroySlots_spec n k [] e (by simp at hn ⊢; omega)
    simpa using this
  | n + 1, k, u :: us, h, X, e, hn => by
    rw [List.map_cons, List.cons_append]
    unfold destroySlots
    have e' : h.live = u ::ₘ ((us : Multiset ℕ) + X) := by rw [e, ← Multiset.cons_coe, Multiset.cons_add]
    have hd : h.destroy u = ⟨(us : Multiset ℕ) + X, h.next⟩ := by unfold Heap.destroy; simp [e']
    rw [hd, destroySlots_spec n k us rfl (by simp at hn; omega)]
    rfl

theorem destroySlots_oob : ∀ (n k : ℕ) (us : List ℕ) (h : Heap), us.length + k < n →
    destroySlots h n (us.map some ++ List.replicate k none) = none
  | n + 1, 0, [], h, hn => rfl
  | n + 1, k + 1, [], h, hn => by
    rw [List.map_nil, List.nil_append, List.replicate_succ]
    unfold destroySlots
    exact destroySlots_oob n k [] h (by simp at hn ⊢; omega)
  | n + 1, k, u :: us, h, hn => by
    rw [List.map_cons, List.cons_append]
    unfold destroySlots
    exact destroySlots_oob n k us _ (by simp at hn; omega)

theorem Heap.free_le {h h' : Heap} {p : Option ℕ} (e : h.free p = some h') : h'.live ≤ h.live ∧ h'.next = h.next := by
  cases p with
  | none => cases e; exact ⟨le_rfl, rfl⟩
  | some a =>
    simp only [Heap.free] at e
    split at e
    · cases e; exact ⟨Multiset.erase_le _ _, rfl⟩
    · cases e

theorem Heap.destroyAll_le : ∀ (vs : List ℕ) (h : Heap), (h.destroyAll vs).live ≤ h.live ∧ (h.destroyAll vs).next = h.next
  | [], h => ⟨le_rfl, rfl⟩
  | a :: l, h => by
    have hd : (h.destroy a).live ≤ h.live ∧ (h.destroy a).next = h.next := by
      unfold Heap.destroy; split
      · exact ⟨Multiset.erase_le _ _, rfl⟩
      · exact ⟨le_rfl, rfl⟩
    obtain ⟨h1, h2⟩ := Heap.destroyAll_le l (h.destroy a)
    exact ⟨h1.trans hd.1, h2.trans hd.2⟩

theorem edestroy_rel {base : Multiset ℕ} {l : ELife} {m : EsolverMem} {h : Heap} (hi : EMemInv base l m h) :
    match l.close with
    | none => esolverDestroy m h = none
    | some n => ∃ h' lost, esolverDestroy m h = some h' ∧ h'.live = base + lost ∧ lost.card = n ∧ h'.Fresh := by
  unfold ELife.close
  rcases hi with ⟨hnd, lost, us, hi⟩ | ⟨hdg, -, a, ha, hdead⟩
  swap
  · rw [hdg]
    simp only
    unfold esolverDestroy
    have hw : ∀ v, eworkDestroy m h = some v → v.1.evalue = some a ∧ v.2.Dead a := by
      intro v hv
      unfold eworkDestroy at hv
      split at hv
      · cases hv; exact ⟨ha, hdead⟩
      · rename_i w vs _
        simp only [Option.bind_eq_bind] at hv
        cases hf : (h.destroyAll vs).free (some w) with
        | none => rw [hf] at hv; cases hv
        | some h2 =>
          rw [hf] at hv
          cases hv
          obtain ⟨q1, q2⟩ := Heap.free_le hf
          obtain ⟨q3, q4⟩ := Heap.destroyAll_le vs h
          exact ⟨ha, hdead.sub (q1.trans q3) (by simp only [q2, q4]; exact le_rfl)⟩
    cases hv : eworkDestroy m h with
    | none => rfl
    | some v =>
      obtain ⟨m1, h1⟩ := v
      obtain ⟨w1, w2⟩ := hw _ hv
      simp only at w1 w2
      simp only [Option.bind_eq_bind, Option.bind_some]
      cases hf : h1.free m1.rhistory with
      | none => rfl
      | some h2 =>
        obtain ⟨q1, q2⟩ := Heap.free_le hf
        simp only [Option.bind_some, w1]
        rw [Heap.free_dead (w2.sub q1 (by rw [q2])).1]
        rfl
  · -- the work vectors
    have hwork : ∀ {X : Multiset ℕ}, h.live = workBlk m.work + X → ∃ h1, eworkDestroy m h = some ({ m with work := none }, h1) ∧
        h1.live = X ∧ h1.Fresh := by
      intro X hX
      unfold eworkDestroy
      cases hw : m.work with
      | none =>
        refine ⟨h, ?_, by rw [hX, hw]; simp [workBlk], hi.fresh⟩
        simp only
        cases m
        simp only at hw
        rw [hw]
      | some v =>
        obtain ⟨w, vs⟩ := v
        have e1 := Heap.destroyAll_eq vs (h := h) (m := {w} + X) (by rw [hX, hw]; simp only [workBlk]; abel)
        have e2 : (Heap.mk ({w} + X) h.next).free (some w) = some ⟨X, h.next⟩ :=
          Heap.free_eq (by simp only [Multiset.singleton_add])
        simp only [e1, e2, Option.bind_eq_bind, Option.bind_some, Option.pure_def]
        exact ⟨_, rfl, rfl, Heap.Fresh.sub (m := h.live) (n := h.next) hi.fresh
          (by rw [hX]; exact Multiset.le_add_left _ _) le_rfl⟩
    unfold esolverDestroy
    obtain ⟨h1, e1, l1, f1⟩ := hwork (X := optBlk m.rhistory + (optBlk m.evalue + (optBlk m.resid + (optBlk m.iter +
      (optBlk m.iter2 + ((us : Multiset ℕ) + (optBlk m.evecArr + ({m.self} + (base + lost)))))))))
      (by rw [hi.live]; simp only [EsolverMem.frame]; abel)
    obtain ⟨h2, e2, l2, f2, -⟩ := Heap.free_step f1 l1
    obtain ⟨h3, e3, l3, f3, -⟩ := Heap.free_step f2 l2
    obtain ⟨h4, e4, l4, f4, -⟩ := Heap.free_step f3 l3
    obtain ⟨h5, e5, l5, f5, -⟩ := Heap.free_step f4 l4
    obtain ⟨h6, e6, l6, f6, -⟩ := Heap.free_step f5 l5
    simp only [e1, e2, e3, e4, e5, e6, Option.bind_eq_bind, Option.bind_some]
    cases ha : l.arr with
    | dangling => exact absurd ha hnd
    | null =>
      obtain ⟨-, -, -, -, -, n6, n7, -⟩ := hi.null ha
      simp only [n6, Option.bind_some]
      obtain ⟨h7, e7, l7, f7, -⟩ := Heap.free_step f6 (p := some m.self) (X := base + lost)
        (by rw [l6, n7]; simp [EsolverMem.evecArr, n6, optBlk])
      exact ⟨h7, lost, e7, l7, hi.card, f7⟩
    | valid =>
      obtain ⟨-, hcap, p, hev⟩ := hi.valid ha
      have hea : m.evecArr = some p := by simp [EsolverMem.evecArr, hev]
      rw [hea] at l6
      simp only [hev, hi.sub, hi.ss]
      cases hsub : l.sub with
      | false =>
        simp only [Bool.false_eq_true, if_false, Option.bind_some]
        obtain ⟨h7, e7, l7, f7, -⟩ := Heap.free_step f6 (p := some p) (X := {m.self} + (us + (base + lost)))
          (by rw [l6]; simp only [optBlk]; abel)
        obtain ⟨h8, e8, l8, f8, -⟩ := Heap.free_step f7 (p := some m.self) (X := us + (base + lost)) l7
        simp only [e7, Option.bind_some]
        refine ⟨h8, (us : Multiset ℕ) + lost, e8, by rw [l8]; abel, ?_, f8⟩
        rw [Multiset.card_add, hi.card, Multiset.coe_card, hi.vcard, Nat.add_comm]
      | true =>
        simp only [if_true]
        by_cases hc : l.ss ≤ l.cap
        · rw [if_pos hc]
          have hds := destroySlots_spec (l.ss + 2) (l.cap + 2 - us.length) us l6 (by omega)
          simp only [hds, Option.bind_some]
          have f6' : Heap.Fresh ⟨(us.drop (l.ss + 2) : List ℕ) + (optBlk (some p) + ({m.self} + (base + lost))), h6.next⟩ := by
            refine Heap.Fresh.sub (m := h6.live) (n := h6.next) f6 ?_ le_rfl
            rw [l6]
            exact add_le_add_left (Multiset.coe_le.2 (List.drop_sublist _ _).subperm) _
          obtain ⟨h7, e7, l7, f7, -⟩ := Heap.free_step f6' (p := some p)
            (X := {m.self} + ((us.drop (l.ss + 2) : List ℕ) + (base + lost))) (by simp only [optBlk]; abel)
          obtain ⟨h8, e8, l8, f8, -⟩ := Heap.free_step f7 (p := some m.self)
            (X := (us.drop (l.ss + 2) : List ℕ) + (base + lost)) l7
          simp only [e7, Option.bind_some]
          refine ⟨h8, ((us.drop (l.ss + 2) : List ℕ) : Multiset ℕ) + lost, e8, by rw [l8]; abel, ?_, f8⟩
          rw [Multiset.card_add, hi.card, Multiset.coe_card, List.length_drop, hi.vcard, Nat.add_comm]
        · rw [if_neg hc]
          rw [destroySlots_oob _ _ _ _ (by omega)]
          rfl

/-- **C59.** For every list of calls and every pattern of failing steps: the life of the handle is free of double frees and
accesses outside arrays exactly when the account says so, and when the handle has been destroyed the blocks in use are those
that were in use before it was created, and as many lost ones as the account says. -/
theorem ehandleLife_spec (cs : List EsolverCall) (hs : SaneCalls 1 cs) {h : Heap} (hf : h.Fresh) :
    match (ELife.fresh.calls cs).bind fun r => r.2.close with
    | none => ehandleLife cs h = none
    | some n => ∃ h' lost, ehandleLife cs h = some h' ∧ h'.live = h.live + lost ∧ lost.card = n ∧ h'.Fresh := by
  have := ecalls_rel cs (esolverCreate_inv hf) hs
  unfold ehandleLife
  cases hres : ELife.fresh.calls cs with
  | none =>
    rw [hres] at this
    have this' : runECalls cs (esolverCreate h).1 (esolverCreate h).2 = none := this
    simp only [this', Option.bind_none, Option.bind_eq_bind]
  | some v =>
    obtain ⟨es, l⟩ := v
    rw [hres] at this
    obtain ⟨m', h', e, hi⟩ := this
    simp only [e, Option.bind_some, Option.bind_eq_bind]
    exact edestroy_rel hi

/-! ### in the user's terms -/

/-- the call goes through to the end -/
def ERun.Completes (r : ERun) : Prop := r.paramOk ∧ r.fail = none

/-- the blocks lost by runs `rs` on a handle that holds `vecs` vectors and `work` blocks of work vectors -/
def elost (vecs work : ℕ) : List ERun → ℕ
  | [] => vecs
  | r :: rs => vecs + work + elost r.nvec (1 + r.nwork) rs

theorem ELife.runs_complete (rs : List ERun) (hc : ∀ r ∈ rs, r.Completes) {l : ELife} (hl : l.arr ≠ .dangling)
    (hcap : l.arr = .valid → l.cap = l.ss) :
    ∃ l', l.calls (rs.map .run) = some (rs.map fun _ => false, l') ∧ l'.sub = l.sub ∧ l'.ss = l.ss ∧
      (rs ≠ [] → l'.arr = .valid) ∧ l'.arr ≠ .dangling ∧ (l'.arr = .valid → l'.cap = l'.ss) ∧
      l'.lost + l'.vecs = l.lost + elost l.vecs l.work rs ∧ (∀ h : rs ≠ [], l'.vecs = (rs.getLast h).nvec) := by
  induction rs generalizing l with
  | nil => exact ⟨l, rfl, rfl, rfl, by simp, hl, hcap, rfl, by simp⟩
  | cons r rs ih =>
    obtain ⟨h1, h2⟩ := hc r List.mem_cons_self
    obtain ⟨l1, e1⟩ : ∃ l1 : ELife, l1 = { l with
      arr := .valid
      vecs := r.nvec
      cap := l.ss
      work := 1 + r.nwork
      lost := l.lost + l.vecs + l.work } := ⟨_, rfl⟩
    have hrun : l.call (.run r) = some (false, l1) := by
      show l.run r = _
      unfold ELife.run
      rw [h1, if_neg (by simp), if_neg hl, h2, e1]
    obtain ⟨l2, e2, a1, a2, a3, a4, a5, a6, a7⟩ := ih (fun r h => hc r (List.mem_cons_of_mem _ h)) (l := l1)
      (by rw [e1]; simp) (by rw [e1]; simp)
    refine ⟨l2, ?_, by rw [a1, e1], by rw [a2, e1], fun _ => ?_, a4, a5, ?_, fun _ => ?_⟩
    · simp only [List.map_cons, ELife.calls, hrun, e2, Option.bind_eq_bind, Option.bind_some, Option.pure_def]
    · by_cases hcs : rs = []
      · subst hcs; cases e2; rw [e1]
      · exact a3 hcs
    · rw [a6, e1]; simp only [elost]; omega
    · by_cases hcs : rs = []
      · subst hcs; cases e2; rw [e1]; rfl
      · rw [a7 hcs, List.getLast_cons hcs]

theorem saneCalls_runs (ss : ℕ) : ∀ rs : List ERun, (∀ r ∈ rs, r.Sane ss) → SaneCalls ss (rs.map .run)
  | [], _ => trivial
  | r :: rs, h => ⟨h r List.mem_cons_self, saneCalls_runs ss rs fun r hr => h r (List.mem_cons_of_mem _ hr)⟩

/-- **C59, completed runs.** Options set once, then runs that all go through, then destruction: nothing is freed twice, nothing
outside an array is touched, and what is lost is: every set of work vectors and eigenvectors but the last, and the last
eigenvectors too unless the option is SI, LI or AI. -/
theorem ehandle_completed (sub : Bool) (ss : ℕ) (rs : List ERun) (hne : rs ≠ []) (hc : ∀ r ∈ rs, r.Completes)
    (hs : ∀ r ∈ rs, r.Sane ss) {h : Heap} (hf : h.Fresh) :
    ∃ h' lost, ehandleLife (.opt sub ss :: rs.map .run) h = some h' ∧ h'.live = h.live + lost ∧
      lost.card + (if sub then (rs.getLast hne).nvec else 0) = elost 0 0 rs := by
  have := ehandleLife_spec (.opt sub ss :: rs.map .run) (saneCalls_runs ss rs hs) hf
  obtain ⟨l, e, a1, a2, a3, a4, a5, a6, a7⟩ := ELife.runs_complete rs hc
    (l := { ELife.fresh with sub := sub, ss := ss }) (by simp [ELife.fresh]) (by simp [ELife.fresh])
  simp only [ELife.calls, ELife.call, e, Option.bind_eq_bind, Option.bind_some, Option.pure_def, ELife.close, a3 hne, a1,
    a5 (a3 hne), le_refl, if_true] at this
  have hv := (hs _ (List.getLast_mem hne)).1
  have h7 := a7 hne
  simp only at a2
  cases sub with
  | true =>
    simp only [if_true] at this
    obtain ⟨h', lost, e1, e2, e3, -⟩ := this
    refine ⟨h', lost, e1, e2, ?_⟩
    simp only [if_true]
    simp only [ELife.fresh] at a6
    omega
  | false =>
    simp only [Bool.false_eq_true, if_false] at this
    obtain ⟨h', lost, e1, e2, e3, -⟩ := this
    refine ⟨h', lost, e1, e2, ?_⟩
    simp only [Bool.false_eq_true, if_false]
    simp only [ELife.fresh] at a6
    omega

/-- **C59, no leak** with one run per handle, if the solver is SI, LI or AI or stores no eigenvectors. -/
theorem ehandle_no_leak (sub : Bool) (ss : ℕ) (r : ERun) (hc : r.Completes) (hs : r.Sane ss) (hn : sub = true ∨ r.nvec = 0)
    {h : Heap} (hf : h.Fresh) : ∃ h', ehandleLife [.opt sub ss, .run r] h = some h' ∧ h'.live = h.live := by
  obtain ⟨h', lost, e1, e2, e3⟩ := ehandle_completed sub ss [r] (by simp) (by simpa using hc) (by simpa using hs) hf
  have hz : lost.card = 0 := by
    simp only [elost, List.getLast_singleton] at e3
    rcases hn with rfl | hn
    · simp only [if_true] at e3; omega
    · rw [hn] at e3; cases sub <;> simp at e3 <;> simp [e3]
  rw [Multiset.card_eq_zero.1 hz, Multiset.add_zero] at e2
  exact ⟨h', e1, e2⟩

/-- **C59, finding.** The generalized subspace methods (GSI, GLI, GAI) leak their eigenvectors even in a single run. -/
theorem ehandle_generalized_leaks (ss : ℕ) (r : ERun) (hc : r.Completes) (hs : r.Sane ss) {h : Heap} (hf : h.Fresh) :
    ∃ h' lost, ehandleLife [.opt false ss, .run r] h = some h' ∧ h'.live = h.live + lost ∧ lost.card = r.nvec := by
  obtain ⟨h', lost, e1, e2, e3⟩ := ehandle_completed false ss [r] (by simp) (by simpa using hc) (by simpa using hs) hf
  exact ⟨h', lost, e1, e2, by simpa [elost] using e3⟩

/-- **C59, finding.** A second run whose array (eigenvalues, residuals, iteration counts, eigenvectors, history) cannot be
allocated returns success, and the handle then cannot be destroyed without a double free. -/
theorem ehandle_double_free (sub : Bool) (ss : ℕ) (rs : List ERun) (hne : rs ≠ []) (hc : ∀ r ∈ rs, r.Completes)
    (hs : ∀ r ∈ rs, r.Sane ss) (q : ERun) (hq : q.paramOk) (hqs : q.Sane ss) {st : EStep} (hst : st ≠ .work)
    (hf : q.fail = some st) {h : Heap} (hfr : h.Fresh) :
    (∃ m h', runECalls (.opt sub ss :: (rs.map .run ++ [.run q])) (esolverCreate h).1 (esolverCreate h).2 =
      some (false :: (rs.map (fun _ => false) ++ [decide (st = .xx)]), m, h')) ∧
    ehandleLife (.opt sub ss :: (rs.map .run ++ [.run q])) h = none := by
  have hsane : SaneCalls 1 (.opt sub ss :: (rs.map .run ++ [.run q])) := by
    show SaneCalls ss (rs.map .run ++ [.run q])
    have := saneCalls_runs ss (rs ++ [q]) (by
      intro r hr
      rcases List.mem_append.1 hr with hr | hr
      · exact hs r hr
      · rw [List.mem_singleton.1 hr]; exact hqs)
    simpa using this
  obtain ⟨l, e, a1, a2, a3, a4, a5, a6, a7⟩ := ELife.runs_complete rs hc
    (l := { ELife.fresh with sub := sub, ss := ss }) (by simp [ELife.fresh]) (by simp [ELife.fresh])
  have happ : ∀ (cs ds : List EsolverCall) (l : ELife),
      l.calls (cs ++ ds) = (l.calls cs).bind fun r => (r.2.calls ds).map fun t => (r.1 ++ t.1, t.2) := by
    intro cs ds
    induction cs with
    | nil =>
      intro l
      show l.calls ds = (some ([], l) : Option (List Bool × ELife)).bind _
      simp
    | cons c cs ih =>
      intro l
      show (do
        let (e, l) ← l.call c
        let (es, l) ← ELife.calls (cs ++ ds) l
        pure (e :: es, l)) = _
      cases hc : l.call c with
      | none => simp [ELife.calls, hc]
      | some v =>
        obtain ⟨e, l1⟩ := v
        simp only [Option.bind_eq_bind, Option.bind_some, ih, Option.pure_def, ELife.calls, hc]
        cases hc2 : l1.calls cs with
        | none => simp
        | some w =>
          obtain ⟨es, l2⟩ := w
          simp only [Option.bind_some]
          cases l2.calls ds <;> simp
  have hq' : ∃ l', l.calls [.run q] = some ([decide (st = .xx)], l') ∧ l'.arr = .dangling := by
    have : ∃ l', l.run q = some (decide (st = .xx), l') ∧ l'.arr = .dangling := by
      unfold ELife.run
      rw [hq, if_neg (by simp), if_neg a4, hf]
      have hv := a3 hne
      cases st <;> first | exact absurd rfl hst | exact ⟨_, rfl, by rw [hv]; rfl⟩
    obtain ⟨l', h1, h2⟩ := this
    exact ⟨l', by simp only [ELife.calls, ELife.call, h1, Option.bind_eq_bind, Option.bind_some, Option.pure_def], h2⟩
  obtain ⟨l', e', hd⟩ := hq'
  have hcalls : ELife.fresh.calls (.opt sub ss :: (rs.map .run ++ [.run q])) =
      some (false :: (rs.map (fun _ => false) ++ [decide (st = .xx)]), l') := by
    simp only [ELife.calls, ELife.call, happ, e, Option.bind_eq_bind, Option.bind_some, Option.pure_def]
    have : l.calls [.run q] = some ([decide (st = .xx)], l') := e'
    simp only [ELife.calls, ELife.call, Option.bind_eq_bind, Option.bind_some, Option.pure_def] at this
    rw [this]
    rfl
  constructor
  · have := ecalls_rel _ (esolverCreate_inv hfr) hsane
    rw [hcalls] at this
    obtain ⟨m, h', e1, -⟩ := this
    exact ⟨m, h', e1⟩
  · have := ehandleLife_spec _ hsane hfr
    rw [hcalls] at this
    simp only [Option.bind_some, ELife.close, hd] at this
    exact this

/-- **C59, finding.** Raising `-ss` (with `-e si|li|ai`) after the last run makes `lis_esolver_destroy` read outside the array
of eigenvectors. -/
theorem ehandle_ss_grown (sub : Bool) (ss ss' : ℕ) (rs : List ERun) (hne : rs ≠ []) (hc : ∀ r ∈ rs, r.Completes)
    (hs : ∀ r ∈ rs, r.Sane ss) (hgt : ss < ss') {h : Heap} (hf : h.Fresh) :
    ∃ m h', runECalls (.opt sub ss :: rs.map .run) (esolverCreate h).1 (esolverCreate h).2 =
      some (false :: rs.map (fun _ => false), m, h') ∧ esolverDestroy { m with sub := true, ss := ss' } h' = none := by
  obtain ⟨l, e, a1, a2, a3, a4, a5, a6, a7⟩ := ELife.runs_complete rs hc
    (l := { ELife.fresh with sub := sub, ss := ss }) (by simp [ELife.fresh]) (by simp [ELife.fresh])
  have := ecalls_rel (.opt sub ss :: rs.map .run) (esolverCreate_inv hf) (saneCalls_runs ss rs hs)
  simp only [ELife.calls, ELife.call, e, Option.bind_eq_bind, Option.bind_some, Option.pure_def] at this
  obtain ⟨m, h', e1, hi⟩ := this
  refine ⟨m, h', e1, ?_⟩
  have hi' : EMemInv h.live { l with sub := true, ss := ss' } { m with sub := true, ss := ss' } h' := by
    rcases hi with ⟨hnd, lost, us, hi⟩ | ⟨hdg, -, a, ha, hdead⟩
    · exact .inl ⟨hnd, lost, us, hi.card, hi.fresh, rfl, rfl, hi.live, hi.wcard, hi.vcard, hi.null, hi.valid⟩
    · exact .inr ⟨hdg, rfl, a, ha, hdead⟩
  have := edestroy_rel hi'
  have hcap := a5 (a3 hne)
  simp only [ELife.close, a3 hne, if_true, if_neg (show ¬ ss' ≤ l.cap by rw [hcap, a2]; exact not_le.2 hgt)] at this
  exact this

/-! ### the hypotheses are met -/

/-- one Lanczos run with `-ss 2` -/
def runLi : ERun := ⟨true, none, 4, 2, List.replicate 4 none⟩

example : runLi.Completes ∧ runLi.Sane 2 := ⟨⟨rfl, rfl⟩, by decide, rfl⟩
/-- one run: nothing lost; three runs: twice 1 + 4 + 2 blocks; the same with GLI -/
example : (ehandleLife [.opt true 2, .run runLi] ⟨{3, 5}, 6⟩).map (fun h => h.live.card) = some 2 := by decide +kernel
example : (ehandleLife [.opt true 2, .run runLi, .run runLi, .run runLi] ⟨{3, 5}, 6⟩).map (fun h => h.live.card) =
    some 16 := by decide +kernel
example : (ehandleLife [.opt false 2, .run runLi] ⟨{3, 5}, 6⟩).map (fun h => h.live.card) = some 4 := by decide +kernel
example : (ehandleLife [.opt true 2, .run runLi, .run { runLi with fail := some .resid }] ⟨{3, 5}, 6⟩).map
    (fun h => h.live.card) = none := by decide +kernel
example : (ehandleLife [.opt true 2, .run runLi, .opt true 3] ⟨{3, 5}, 6⟩).map (fun h => h.live.card) = none := by
  decide +kernel
/-- a failure before anything was run: the blocks allocated by the call are lost -/
example : (ehandleLife [.opt true 2, .run { runLi with fail := some .evector }] ⟨{3, 5}, 6⟩).map
    (fun h => h.live.card) = some 7 := by decide +kernel

/-- **C59, finding.** `lis_esolver_destroy` looks at two elements of the array of eigenvectors that no solver sets: when fresh
memory happens to contain the address of a vector of the caller (block 3), that vector is destroyed. -/
theorem ehandle_junk_freed : (ehandleLife [.opt true 2, .run { runLi with junk := [none, none, some 3, none] }]
    ⟨{3, 5}, 6⟩).map (fun h => h.live) = some {5} := by decide +kernel

end Lis
