import Verif.Spec.Lifetime
import Mathlib.Tactic.Abel
import Mathlib.Algebra.Order.Group.Multiset

/-! The calls on a solver handle follow the account `Life`. -/

namespace Lis

namespace Heap

theorem free_eq {h : Heap} {a : ℕ} {m : Multiset ℕ} (e : h.live = a ::ₘ m) : h.free (some a) = some ⟨m, h.next⟩ := by
  unfold free
  simp [e]

theorem free_none (h : Heap) : h.free none = some h := rfl

theorem free_dead {h : Heap} {a : ℕ} (e : a ∉ h.live) : h.free (some a) = none := by
  unfold free; simp [e]

theorem destroyAll_eq : ∀ (vs : List ℕ) {h : Heap} {m : Multiset ℕ}, h.live = (vs : Multiset ℕ) + m →
    h.destroyAll vs = ⟨m, h.next⟩
  | [], h, m, e => by
    have : h.live = m := by simpa using e
    unfold destroyAll
    rw [← this]
  | a :: l, h, m, e => by
    unfold destroyAll
    have e' : h.live = a ::ₘ ((l : Multiset ℕ) + m) := by rw [e, ← Multiset.cons_coe, Multiset.cons_add]
    have : h.destroy a = ⟨(l : Multiset ℕ) + m, h.next⟩ := by unfold destroy; simp [e']
    rw [this]
    exact destroyAll_eq l rfl

/-- blocks that are not in use: nothing happens -/
theorem destroyAll_dead : ∀ (vs : List ℕ) {h : Heap}, (∀ a ∈ vs, a ∉ h.live) → h.destroyAll vs = h
  | [], h, _ => rfl
  | a :: l, h, e => by
    unfold destroyAll
    have : h.destroy a = h := by unfold destroy; rw [if_neg (e a List.mem_cons_self)]
    rw [this]
    exact destroyAll_dead l fun b hb => e b (List.mem_cons_of_mem _ hb)

theorem allocN_spec : ∀ (n : ℕ) (h : Heap), (h.allocN n).1.length = n ∧
    (h.allocN n).2.live = ((h.allocN n).1 : Multiset ℕ) + h.live ∧ (h.allocN n).2.next = h.next + n ∧
    (∀ a ∈ (h.allocN n).1, h.next ≤ a ∧ a < h.next + n) ∧ (h.allocN n).1.Nodup
  | 0, h => by
    refine ⟨rfl, ?_, rfl, fun a ha => ?_, List.nodup_nil⟩
    · simp [allocN]
    · simp [allocN] at ha
  | n + 1, h => by
    obtain ⟨h1, h2, h3, h4, h5⟩ := allocN_spec n h.alloc.2
    have e : h.allocN (n + 1) = (h.next :: (h.alloc.2.allocN n).1, (h.alloc.2.allocN n).2) := rfl
    rw [e]
    refine ⟨by simp [h1], ?_, ?_, ?_, ?_⟩
    · simp only
      rw [h2]
      show _ + (h.next ::ₘ h.live) = (h.next ::ₘ ((h.alloc.2.allocN n).1 : Multiset ℕ)) + h.live
      simp only [← Multiset.singleton_add]
      abel
    · simp only
      rw [h3]
      show h.next + 1 + n = _
      omega
    · intro a ha
      simp only at ha
      rcases List.mem_cons.1 ha with rfl | ha
      · omega
      · have := h4 a ha
        have e2 : h.alloc.2.next = h.next + 1 := rfl
        omega
    · simp only
      rw [List.nodup_cons]
      refine ⟨fun ha => ?_, h5⟩
      have := h4 _ ha
      have e2 : h.alloc.2.next = h.next + 1 := rfl
      omega

end Heap

/-- what a possibly-NULL pointer owns -/
def optBlk : Option ℕ → Multiset ℕ
  | none => 0
  | some a => {a}

theorem Heap.free_opt {h : Heap} {p : Option ℕ} {m : Multiset ℕ} (e : h.live = optBlk p + m) :
    h.free p = some ⟨m, h.next⟩ := by
  cases p with
  | none =>
    have : h.live = m := by simpa [optBlk] using e
    rw [Heap.free_none, ← this]
  | some a => exact Heap.free_eq (by rw [e]; simp [optBlk])

/-- no block is listed twice and the next name is new -/
structure Heap.Fresh (h : Heap) : Prop where
  nodup : h.live.Nodup
  lt : ∀ a ∈ h.live, a < h.next

theorem Heap.Fresh.cons {m : Multiset ℕ} {n : ℕ} (h : Heap.Fresh ⟨m, n⟩) : Heap.Fresh ⟨n ::ₘ m, n + 1⟩ where
  nodup := by
    show (n ::ₘ m).Nodup
    rw [Multiset.nodup_cons]
    exact ⟨fun hm => absurd (h.lt _ hm) (lt_irrefl _), h.nodup⟩
  lt := by
    intro a ha
    rcases Multiset.mem_cons.1 ha with rfl | ha
    · exact Nat.lt_succ_self _
    · exact Nat.lt_succ_of_lt (h.lt a ha)

theorem Heap.Fresh.sub {m m' : Multiset ℕ} {n n' : ℕ} (h : Heap.Fresh ⟨m, n⟩) (hm : m' ≤ m) (hn : n ≤ n') :
    Heap.Fresh ⟨m', n'⟩ where
  nodup := Multiset.nodup_of_le hm h.nodup
  lt := fun a ha => lt_of_lt_of_le (h.lt a (Multiset.mem_of_le hm ha)) hn

theorem Heap.Fresh.allocN {h : Heap} (hf : h.Fresh) (n : ℕ) : (h.allocN n).2.Fresh := by
  induction n generalizing h with
  | zero => exact hf
  | succ n ih => exact ih (h := h.alloc.2) hf.cons

/-- the handle agrees with the account: what is in use is `base` (not ours), what is lost, and what the handle owns -/
structure LifeInv (base lost : Multiset ℕ) (l : Life) (s : SolverMem) (h : Heap) : Prop where
  card : lost.card = l.lost
  fresh : h.Fresh
  live : h.live = base + lost + {s.self} + optBlk s.d + optBlk s.Ah + if l.hist = .valid then optBlk s.rhistory else 0
  d : s.d.isSome = l.hasD
  ah : s.Ah.isSome = l.hasAh
  work : s.work = none
  setup : s.setup = l.setup
  exec : s.executed = l.executed
  null : l.hist = .null → s.rhistory = none
  valid : l.hist = .valid → s.rhistory.isSome
  dangling : l.hist = .dangling → ∃ a, s.rhistory = some a ∧ a ∉ h.live ∧ a < h.next

/-- the outcome of a call agrees with the account -/
def LifeRel (base : Multiset ℕ) (lr : Option (Bool × Life)) (cr : Option (Bool × SolverMem × Heap)) : Prop :=
  match lr with
  | none => cr = none
  | some (e, l') => ∃ s' h' lost, cr = some (e, s', h') ∧ LifeInv base lost l' s' h'

theorem solverCreate_inv {h : Heap} (hf : h.Fresh) :
    LifeInv h.live 0 Life.fresh (solverCreate h).1 (solverCreate h).2 where
  card := rfl
  fresh := hf.cons
  live := by
    show h.next ::ₘ h.live = h.live + 0 + {h.next} + 0 + 0 + 0
    simp only [← Multiset.singleton_add]
    abel
  d := rfl
  ah := rfl
  work := rfl
  setup := rfl
  exec := rfl
  null := fun _ => rfl
  valid := fun h => by cases h
  dangling := fun h => by cases h

namespace LifeInv
variable {base lost : Multiset ℕ} {l : Life} {s : SolverMem} {h : Heap}

theorem alloc (hi : LifeInv base lost l s h) : LifeInv (h.next ::ₘ base) lost l s h.alloc.2 where
  card := hi.card
  fresh := hi.fresh.cons
  live := by
    show h.next ::ₘ h.live = _
    rw [hi.live]
    simp only [← Multiset.singleton_add]
    abel
  d := hi.d
  ah := hi.ah
  work := hi.work
  setup := hi.setup
  exec := hi.exec
  null := hi.null
  valid := hi.valid
  dangling := by
    intro hd
    obtain ⟨a, a1, a2, a3⟩ := hi.dangling hd
    refine ⟨a, a1, fun hm => ?_, Nat.lt_succ_of_lt a3⟩
    rcases Multiset.mem_cons.1 hm with rfl | hm
    · exact absurd a3 (lt_irrefl _)
    · exact a2 hm

/-- what follows from dropping a part of `base` -/
theorem drop {m : Multiset ℕ} (hi : LifeInv (m + base) lost l s h) : ∃ live, h.live = m + live ∧
    LifeInv base lost l s ⟨live, h.next⟩ := by
  obtain ⟨live, hl⟩ : ∃ live, live = base + lost + {s.self} + optBlk s.d + optBlk s.Ah +
    if l.hist = .valid then optBlk s.rhistory else 0 := ⟨_, rfl⟩
  have he : h.live = m + live := by rw [hi.live, hl]; simp only [Multiset.add_assoc]
  refine ⟨live, he, ?_⟩
  have hle : live ≤ h.live := by rw [he]; exact Multiset.le_add_left _ _
  exact ⟨hi.card, hi.fresh.sub hle le_rfl, hl, hi.d, hi.ah, hi.work, hi.setup, hi.exec, hi.null, hi.valid, fun hd => by
    obtain ⟨a, a1, a2, a3⟩ := hi.dangling hd
    exact ⟨a, a1, fun hm => a2 (Multiset.mem_of_le hle hm), a3⟩⟩

theorem free {a : ℕ} (hi : LifeInv (a ::ₘ base) lost l s h) : ∃ h', h.free (some a) = some h' ∧
    LifeInv base lost l s h' := by
  rw [← Multiset.singleton_add] at hi
  obtain ⟨live, e, hi'⟩ := hi.drop
  rw [Multiset.singleton_add] at e
  exact ⟨_, Heap.free_eq e, hi'⟩

theorem destroyAll {vs : List ℕ} (hi : LifeInv ((vs : Multiset ℕ) + base) lost l s h) : ∃ h', h.destroyAll vs = h' ∧
    LifeInv base lost l s h' := by
  obtain ⟨live, e, hi'⟩ := hi.drop
  exact ⟨_, Heap.destroyAll_eq vs e, hi'⟩

/-- a second destruction changes nothing -/
theorem destroyAll_twice {vs : List ℕ} (hi : LifeInv ((vs : Multiset ℕ) + base) lost l s h) :
    (h.destroyAll vs).destroyAll vs = h.destroyAll vs := by
  obtain ⟨live, e, hi'⟩ := hi.drop
  rw [Heap.destroyAll_eq vs e]
  refine Heap.destroyAll_dead vs fun a ha hm => ?_
  have hn := hi.fresh.nodup
  rw [e, Multiset.nodup_add] at hn
  exact Multiset.disjoint_left.1 hn.2.2 (by simpa using ha) hm

theorem lose {a : ℕ} (hi : LifeInv (a ::ₘ base) lost l s h) :
    LifeInv base (a ::ₘ lost) { l with lost := l.lost + 1 } s h where
  card := by rw [Multiset.card_cons, hi.card]
  fresh := hi.fresh
  live := by
    rw [hi.live]
    simp only [← Multiset.singleton_add]
    abel
  d := hi.d
  ah := hi.ah
  work := hi.work
  setup := hi.setup
  exec := hi.exec
  null := hi.null
  valid := hi.valid
  dangling := hi.dangling

theorem swap {a b : ℕ} (hi : LifeInv (a ::ₘ b ::ₘ base) lost l s h) : LifeInv (b ::ₘ a ::ₘ base) lost l s h := by
  rw [Multiset.cons_swap]; exact hi

theorem allocN (hi : LifeInv base lost l s h) (n : ℕ) :
    LifeInv (((h.allocN n).1 : Multiset ℕ) + base) lost l s (h.allocN n).2 := by
  induction n generalizing h base with
  | zero => simpa [Heap.allocN] using hi
  | succ n ih =>
    have := ih hi.alloc
    have e : h.allocN (n + 1) = (h.next :: (h.alloc.2.allocN n).1, (h.alloc.2.allocN n).2) := rfl
    rw [e]
    simp only
    rw [← Multiset.cons_coe, Multiset.cons_add, ← Multiset.add_cons]
    exact this

theorem workDestroy_none (hi : LifeInv base lost l s h) : workDestroy s h = some (s, h) := by
  unfold workDestroy; rw [hi.work]

theorem workDestroy_some {w : ℕ} {vs : List ℕ} (hi : LifeInv ((vs : Multiset ℕ) + (w ::ₘ base)) lost l s h) :
    ∃ h', workDestroy { s with work := some (w, vs) } h = some (s, h') ∧ LifeInv base lost l s h' := by
  obtain ⟨h1, e1, hi1⟩ := hi.destroyAll
  obtain ⟨h2, e2, hi2⟩ := hi1.free
  refine ⟨h2, ?_, hi2⟩
  have hw := hi.work
  unfold workDestroy
  simp only [e1, Option.bind_eq_bind, Option.bind_some, e2, Option.pure_def]
  cases s
  simp only at hw
  subst hw
  rfl

end LifeInv

/-- the outcome of the kernel: it keeps the preconditioner `p` when it reports success -/
def KernelRel (base : Multiset ℕ) (p : ℕ) (lr : Option (Bool × Life)) (cr : Option (Bool × SolverMem × Heap)) : Prop :=
  match lr with
  | none => cr = none
  | some (false, l') => ∃ s' h' lost, cr = some (false, s', h') ∧ LifeInv (p ::ₘ base) lost l' s' h'
  | some (true, l') => ∃ s' h' lost, cr = some (true, s', h') ∧ LifeInv base lost l' s' h'

theorem LifeInv.setExec {base lost : Multiset ℕ} {l : Life} {s : SolverMem} {h : Heap} (hi : LifeInv base lost l s h)
    (n : ℕ) : LifeInv base lost { l with executed := l.executed + n } { s with executed := s.executed + n } h where
  card := hi.card
  fresh := hi.fresh
  live := hi.live
  d := hi.d
  ah := hi.ah
  work := hi.work
  setup := hi.setup
  exec := by simp only [hi.exec]
  null := hi.null
  valid := hi.valid
  dangling := hi.dangling

theorem LifeInv.setHist {base lost : Multiset ℕ} {l : Life} {s : SolverMem} {h : Heap} {rh : ℕ}
    (hi : LifeInv (rh ::ₘ base) lost l s h) (hl : l.hist ≠ .valid) :
    LifeInv base lost { l with hist := .valid } { s with rhistory := some rh } h where
  card := hi.card
  fresh := hi.fresh
  live := by
    rw [hi.live, if_neg hl, if_pos rfl]
    simp only [← Multiset.singleton_add, optBlk]
    abel
  d := hi.d
  ah := hi.ah
  work := hi.work
  setup := hi.setup
  exec := hi.exec
  null := fun h => by cases h
  valid := fun _ => rfl
  dangling := fun h => by cases h

theorem LifeInv.setAh {base lost : Multiset ℕ} {l : Life} {s : SolverMem} {h : Heap} {p : ℕ}
    (hi : LifeInv (p ::ₘ base) lost l s h) :
    ∃ lost', LifeInv base lost' { l with hasAh := true, lost := l.lost + if l.hasAh then 1 else 0 }
      { s with Ah := some p } h := by
  refine ⟨optBlk s.Ah + lost, ?_, hi.fresh, ?_, hi.d, rfl, hi.work, hi.setup, hi.exec, hi.null, hi.valid, hi.dangling⟩
  · have := hi.ah
    rw [Multiset.card_add, hi.card]
    cases hA : s.Ah with
    | none => rw [hA] at this; simp [optBlk, ← this]
    | some a => rw [hA] at this; simp [optBlk, ← this, Nat.add_comm]
  · rw [hi.live]
    simp only [← Multiset.singleton_add, optBlk]
    abel

theorem LifeInv.setD {base lost : Multiset ℕ} {l : Life} {s : SolverMem} {h : Heap} {p : ℕ}
    (hi : LifeInv (p ::ₘ base) lost l s h) (hd : s.d = none) :
    LifeInv base lost { l with hasD := true } { s with d := some p } h := by
  refine ⟨hi.card, hi.fresh, ?_, rfl, hi.ah, hi.work, hi.setup, hi.exec, hi.null, hi.valid, hi.dangling⟩
  rw [hi.live, hd]
  simp only [← Multiset.singleton_add, optBlk]
  abel

theorem LifeInv.setWD {base lost : Multiset ℕ} {l : Life} {s : SolverMem} {h : Heap} (wd : Option ℕ)
    (hi : LifeInv base lost l s h) : LifeInv base lost l { s with WD := wd } h :=
  ⟨hi.card, hi.fresh, hi.live, hi.d, hi.ah, hi.work, hi.setup, hi.exec, hi.null, hi.valid, hi.dangling⟩

/-- the account of `solveMain` -/
def Life.main (r : Run) (l : Life) : Option (Bool × Life) :=
  if !r.workOk then some (true, { l with lost := l.lost + 1 })
  else some (false, { l with
    hist := .valid, hasAh := l.hasAh || r.useAt, lost := l.lost + if r.useAt ∧ l.hasAh then 1 else 0,
    executed := l.executed + if l.setup then 0 else 1 })

theorem solveTail {base lost : Multiset ℕ} {l : Life} {s : SolverMem} {h : Heap} {r : Run} {xx rh w : ℕ} {vs : List ℕ}
    (hi : LifeInv ((vs : Multiset ℕ) + (w ::ₘ rh ::ₘ xx ::ₘ base)) lost l s h) (hl : l.hist ≠ .valid) :
    ∃ s' h', (do
      let (s, h) ← if s.setup then some ({ s with work := some (w, vs), rhistory := some rh }, h)
        else solveExecute r { s with work := some (w, vs), rhistory := some rh } h
      let (s, h) ← workDestroy s h
      let (t, h) := h.alloc
      let h ← h.free (some t)
      let h ← h.free (some xx)
      some (false, s, h) : Option (Bool × SolverMem × Heap)) = some (false, s', h') ∧
      LifeInv base lost { l with hist := .valid, executed := l.executed + if l.setup then 0 else 1 } s' h' := by
  have hset := hi.setup
  have hi0 : LifeInv ((vs : Multiset ℕ) + (w ::ₘ xx ::ₘ base)) lost { l with hist := .valid }
      { s with rhistory := some rh } h := by
    refine LifeInv.setHist (rh := rh) ?_ hl
    have : (vs : Multiset ℕ) + (w ::ₘ rh ::ₘ xx ::ₘ base) = rh ::ₘ ((vs : Multiset ℕ) + (w ::ₘ xx ::ₘ base)) := by
      simp only [← Multiset.singleton_add]; abel
    rw [← this]; exact hi
  have hend : ∀ n, ∀ s1, s1 = { s with rhistory := some rh, executed := s.executed + n } →
      ∀ h0, h0.destroyAll vs = h.destroyAll vs → ∃ s' h',
      (do
        let (s, h) ← workDestroy { s1 with work := some (w, vs) } h0
        let (t, h) := h.alloc
        let h ← h.free (some t)
        let h ← h.free (some xx)
        some (false, s, h) : Option (Bool × SolverMem × Heap)) = some (false, s', h') ∧
        LifeInv base lost { l with hist := .valid, executed := l.executed + n } s' h' := by
    rintro n s1 rfl h0 hh0
    obtain ⟨h1, e1, hi1⟩ := (hi0.setExec n).workDestroy_some
    have e1' : workDestroy { s with work := some (w, vs), rhistory := some rh, executed := s.executed + n } h0 =
        workDestroy { s with work := some (w, vs), rhistory := some rh, executed := s.executed + n } h := by
      unfold workDestroy
      simp only [hh0]
    obtain ⟨h2, e2, hi2⟩ := hi1.alloc.free
    obtain ⟨h3, e3, hi3⟩ := hi2.free
    refine ⟨_, h3, ?_, hi3⟩
    simp only [e1', e1, Option.bind_eq_bind, Option.bind_some]
    have e2' : h1.alloc.2.free (some h1.alloc.1) = some h2 := e2
    simp only [e2', Option.bind_some, e3]
  by_cases hs : s.setup = true
  · have hs' : l.setup = true := by rw [← hset]; exact hs
    rw [if_pos hs, if_pos hs']
    obtain ⟨s', h', e, hi'⟩ := hend 0 _ rfl h rfl
    exact ⟨s', h', e, hi'⟩
  · have hs' : l.setup = false := by rw [← hset]; simpa using hs
    rw [if_neg hs, if_neg (by rw [hs']; simp)]
    obtain ⟨h0, hh0⟩ : ∃ h0, h0 = if r.minresMaxiter then h.destroyAll vs else h := ⟨_, rfl⟩
    have hd : h0.destroyAll vs = h.destroyAll vs := by
      rw [hh0]; split
      · exact hi0.destroyAll_twice
      · rfl
    obtain ⟨s', h', e, hi'⟩ := hend 1 _ rfl h0 hd
    refine ⟨s', h', ?_, hi'⟩
    have hex : solveExecute r { s with work := some (w, vs), rhistory := some rh } h =
        some ({ s with work := some (w, vs), rhistory := some rh, executed := s.executed + 1 }, h0) := by
      rw [hh0]; rfl
    rw [hex]
    exact e

theorem solveMain_rel {base lost : Multiset ℕ} {l : Life} {s : SolverMem} {h : Heap} {p xx rh : ℕ} (r : Run)
    (hi : LifeInv (rh ::ₘ xx ::ₘ p ::ₘ base) lost l s h) (hl : l.hist ≠ .valid) :
    KernelRel base p (l.main r) (solveMain r p xx rh s h) := by
  unfold Life.main solveMain
  cases hw : r.workOk
  · simp only [Bool.not_false, if_true, Bool.false_eq_true, if_false]
    obtain ⟨h1, e1, hi1⟩ := hi.swap.free
    obtain ⟨h2, e2, hi2⟩ := hi1.swap.free
    refine ⟨s, h2, rh ::ₘ lost, ?_, hi2.lose⟩
    simp only [e1, e2, Option.bind_eq_bind, Option.bind_some]
  · simp only [Bool.not_true, if_true, Bool.false_eq_true, if_false]
    have hi1 := (hi.alloc).allocN r.nwork
    obtain ⟨hlen, -⟩ := Heap.allocN_spec r.nwork h.alloc.2
    obtain ⟨vs, hvs⟩ : ∃ vs, vs = (h.alloc.2.allocN r.nwork).1 := ⟨_, rfl⟩
    obtain ⟨h2, hh2⟩ : ∃ h2, h2 = (h.alloc.2.allocN r.nwork).2 := ⟨_, rfl⟩
    rw [← hvs, ← hh2] at hi1
    rw [← hvs] at hlen
    obtain ⟨w, hww⟩ : ∃ w, w = h.alloc.1 := ⟨_, rfl⟩
    have hi1' : LifeInv ((vs : Multiset ℕ) + (w ::ₘ rh ::ₘ xx ::ₘ p ::ₘ base)) lost l s h2 := by rw [hww]; exact hi1
    simp only [← hvs, ← hh2, ← hww]
    cases hu : r.useAt
    · simp only [Bool.false_eq_true, if_false, false_and, Bool.or_false, Nat.add_zero]
      obtain ⟨s', h', e, hi'⟩ := solveTail (r := r) hi1' hl
      exact ⟨s', h', lost, e, hi'⟩
    · simp only [if_true, Bool.or_true, true_and]
      obtain ⟨lost', hi2⟩ := hi1'.alloc.setAh
      obtain ⟨s', h', e, hi'⟩ := solveTail (r := r) hi2 hl
      exact ⟨s', h', lost', e, hi'⟩

end Lis
