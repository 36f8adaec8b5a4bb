import Verif.Lemmas.Lifetime

/-!
# C43: the memory of a solver handle

For every history of `lis_solve` / `lis_solve_setup` calls on one handle, with every combination of failing steps, the
blocks in use are exactly those the account `Life` (Spec/Lifetime) says.
-/

namespace Lis

theorem solveRest_conv {base lost : Multiset ℕ} {l : Life} {s : SolverMem} {h : Heap} {p xx rh : ℕ} (r : Run)
    (hi : LifeInv (rh ::ₘ xx ::ₘ p ::ₘ base) lost l s h) (hl : l.hist ≠ .valid) :
    KernelRel base p (if !r.convOk then some (true, { l with lost := l.lost + 1 }) else l.main r)
      (if r.convOk then solveMain r p xx rh s h
      else do
        let h ← h.free (some xx)
        let (s, h) ← workDestroy s h
        let h ← h.free (some rh)
        some (true, s, h)) := by
  cases hc : r.convOk
  · simp only [Bool.not_false, if_true, Bool.false_eq_true, if_false]
    obtain ⟨h1, e1, hi1⟩ := hi.swap.free
    obtain ⟨h2, e2, hi2⟩ := hi1.free
    refine ⟨s, h2, p ::ₘ lost, ?_, hi2.lose⟩
    simp only [e1, Option.bind_eq_bind, Option.bind_some, hi1.workDestroy_none, e2]
  · simp only [Bool.not_true, if_true, Bool.false_eq_true, if_false]
    exact solveMain_rel r hi hl

theorem LifeInv.lose3 {base lost : Multiset ℕ} {l : Life} {s : SolverMem} {h : Heap} {p xx rh : ℕ}
    (hi : LifeInv (rh ::ₘ xx ::ₘ p ::ₘ base) lost l s h) :
    LifeInv base (p ::ₘ xx ::ₘ rh ::ₘ lost) { l with lost := l.lost + 3 } s h := hi.lose.lose.lose

theorem solveRest_rel {base lost : Multiset ℕ} {l : Life} {s : SolverMem} {h : Heap} {p xx : ℕ} (r : Run)
    (hi : LifeInv (xx ::ₘ p ::ₘ base) lost l s h) (hl : l.hist ≠ .valid) :
    KernelRel base p (l.rest r) (solveRest r p xx s h) := by
  unfold Life.rest solveRest
  cases hr : r.rhistOk
  · simp only [Bool.not_false, if_true, Bool.false_eq_true, if_false]
    obtain ⟨h1, e1, hi1⟩ := hi.free
    refine ⟨s, h1, lost, ?_, hi1⟩
    simp only [e1, Option.bind_eq_bind, Option.bind_some]
  · simp only [Bool.not_true, if_true, Bool.false_eq_true, if_false]
    have hi1 := hi.alloc
    obtain ⟨h1, hh1⟩ : ∃ h1, h1 = h.alloc.2 := ⟨_, rfl⟩
    obtain ⟨rh, hrh⟩ : ∃ rh, rh = h.alloc.1 := ⟨_, rfl⟩
    rw [← hh1, show h.next = rh from hrh.symm] at hi1
    simp only [← hh1, ← hrh]
    unfold solveScaling
    cases hsc : r.scaling with
    | no =>
      simp only [reduceCtorEq, false_and, or_self, if_false, decide_false, Bool.or_false, Nat.add_zero,
        Option.bind_eq_bind, Option.bind_some, if_true]
      exact solveRest_conv r hi1 hl
    | diag =>
      cases hd : s.d with
      | some a =>
        have hD : l.hasD = true := by rw [← hi.d, hd]; rfl
        simp only [hD, Bool.true_eq_false, false_and, and_false, reduceCtorEq, or_self, if_false, Bool.true_or,
          Nat.add_zero, Option.bind_eq_bind, Option.bind_some, if_true]
        have := solveRest_conv r hi1 hl
        have hl' : l = { l with hasD := true } := by rw [← hD]
        rw [hl'] at this
        exact this
      | none =>
        have hD : l.hasD = false := by rw [← hi.d, hd]; rfl
        cases hdo : r.dOk
        · simp only [hD, reduceCtorEq, true_and, false_and, or_false, if_true, Bool.false_eq_true, if_false,
            Option.bind_eq_bind, Option.bind_some]
          have := hi1.lose3
          rw [hD] at this
          exact ⟨s, h1, _, rfl, this⟩
        · simp only [hD, reduceCtorEq, Bool.true_eq_false, and_false, false_and, or_self, if_false, if_true,
            decide_true, Bool.false_or, Nat.add_zero, Option.bind_eq_bind, Option.bind_some]
          exact solveRest_conv r (hi1.alloc.setD hd) hl
    | block =>
      cases hb : r.blockOk
      · simp only [reduceCtorEq, false_and, true_and, false_or, if_true, Bool.false_eq_true, if_false,
          Option.bind_eq_bind, Option.bind_some]
        exact ⟨s, h1, _, rfl, hi1.lose3⟩
      · simp only [reduceCtorEq, false_and, Bool.true_eq_false, and_false, or_self, if_false, if_true, decide_false,
          Bool.or_false, Option.bind_eq_bind]
        have hi2 := hi1.alloc.lose.setWD (some h1.alloc.1)
        obtain ⟨h2, hh2⟩ : ∃ h2, h2 = h1.alloc.2 := ⟨_, rfl⟩
        rw [← hh2] at hi2
        simp only [← hh2]
        obtain ⟨h3, e3, hi3⟩ := hi2.alloc.free
        have e3' : h2.alloc.2.free (some h2.alloc.1) = some h3 := e3
        simp only [e3', Option.bind_some, Option.pure_def]
        exact solveRest_conv r hi3 hl

theorem solve_rel {base lost : Multiset ℕ} {l : Life} {s : SolverMem} {h : Heap} (r : Run)
    (hi : LifeInv base lost l s h) : LifeRel base (l.solve r) (solve r s h) := by
  unfold Life.solve solve
  cases hp : r.preconOk
  · simp only [Bool.not_false, if_true, Bool.false_eq_true, if_false]
    refine ⟨s, h, lost, ?_, hi⟩
    simp only [hi.workDestroy_none, Option.bind_eq_bind, Option.bind_some]
  · simp only [Bool.not_true, if_true, Bool.false_eq_true, if_false]
    have hi1 := hi.alloc
    obtain ⟨h1, hh1⟩ : ∃ h1, h1 = h.alloc.2 := ⟨_, rfl⟩
    obtain ⟨p, hp⟩ : ∃ p, p = h.alloc.1 := ⟨_, rfl⟩
    rw [← hh1, show h.next = p from hp.symm] at hi1
    simp only [← hh1, ← hp]
    unfold solveKernel
    by_cases hpx : r.paramOk = true ∧ r.xxOk = true
    · simp only [hpx.1, hpx.2, Bool.not_true, Bool.or_self, Bool.and_self, if_true, Bool.false_eq_true, if_false]
      have hi2 := hi1.alloc
      obtain ⟨h2, hh2⟩ : ∃ h2, h2 = h1.alloc.2 := ⟨_, rfl⟩
      obtain ⟨xx, hxx⟩ : ∃ xx, xx = h1.alloc.1 := ⟨_, rfl⟩
      rw [← hh2, show h1.next = xx from hxx.symm] at hi2
      simp only [← hh2, ← hxx]
      by_cases hda : l.hist = .dangling
      · rw [if_pos hda]
        obtain ⟨a, a1, a2, -⟩ := hi2.dangling hda
        show _ = none
        simp only [a1, Heap.free_dead a2, Option.bind_eq_bind, Option.bind_none]
      · rw [if_neg hda]
        obtain ⟨h3, e3, hi3⟩ : ∃ h3, h2.free s.rhistory = some h3 ∧
            LifeInv (xx ::ₘ p ::ₘ base) lost { l with hist := Life.release l.hist } s h3 := by
          cases hh : l.hist with
          | dangling => exact absurd hh hda
          | null =>
            have e : { l with hist := Life.release .null } = l := by
              cases l; simp only at hh; subst hh; rfl
            rw [e]
            exact ⟨h2, by rw [hi.null hh]; rfl, hi2⟩
          | valid =>
            obtain ⟨live, hlv⟩ : ∃ live, live = (xx ::ₘ p ::ₘ base) + lost + {s.self} + optBlk s.d + optBlk s.Ah :=
              ⟨_, rfl⟩
            have he : h2.live = optBlk s.rhistory + live := by
              rw [hi2.live, if_pos hh, hlv, Multiset.add_comm (optBlk s.rhistory)]
            refine ⟨_, Heap.free_opt he, hi2.card, hi2.fresh.sub (by rw [he]; exact Multiset.le_add_left _ _) le_rfl,
              ?_, hi2.d, hi2.ah, hi2.work, hi2.setup, hi2.exec, fun h => (by cases h), fun h => (by cases h), fun _ => ?_⟩
            · rw [hlv]; simp [Life.release]
            · cases hrh : s.rhistory with
              | none => have := hi2.valid hh; rw [hrh] at this; cases this
              | some a =>
                refine ⟨a, rfl, ?_, ?_⟩
                · have hn := hi2.fresh.nodup
                  rw [he, hrh] at hn
                  intro hm
                  simp only [optBlk, Multiset.singleton_add, Multiset.nodup_cons] at hn
                  exact hn.1 hm
                · exact hi2.fresh.lt a (by rw [he, hrh]; simp [optBlk])
        simp only [e3, Option.bind_eq_bind, Option.bind_some]
        have := solveRest_rel r hi3 (by cases hh : l.hist <;> simp [Life.release])
        cases hres : Life.rest r { l with hist := Life.release l.hist } with
        | none =>
          rw [hres] at this
          have this : _ = none := this
          show _ = none
          rw [this]; rfl
        | some v =>
          obtain ⟨e, l'⟩ := v
          rw [hres] at this
          cases e with
          | false =>
            obtain ⟨s', h', lost', e, hi'⟩ := this
            obtain ⟨h4, e4, hi4⟩ := hi'.free
            refine ⟨s', h4, lost', ?_, hi4⟩
            simp only [e, Option.bind_some, Bool.false_eq_true, if_false, e4]
          | true =>
            obtain ⟨s', h', lost', e, hi'⟩ := this
            refine ⟨s', h', lost', ?_, hi'⟩
            simp only [e, Option.bind_some, if_true, hi'.workDestroy_none]
    · rw [if_pos (by simp only [Bool.or_eq_true, Bool.not_eq_true']; by_contra hc; apply hpx; simpa using hc),
        if_neg (by simpa using hpx)]
      refine ⟨s, h1, p ::ₘ lost, ?_, hi1.lose⟩
      simp only [Option.bind_eq_bind, Option.bind_some, if_true, hi1.workDestroy_none]

theorem LifeInv.setSetup {base lost : Multiset ℕ} {l : Life} {s : SolverMem} {h : Heap}
    (hi : LifeInv base lost l s h) : LifeInv base lost { l with setup := true } { s with setup := true } h :=
  ⟨hi.card, hi.fresh, hi.live, hi.d, hi.ah, hi.work, rfl, hi.exec, hi.null, hi.valid, hi.dangling⟩

theorem call_rel {base lost : Multiset ℕ} {l : Life} {s : SolverMem} {h : Heap} (c : SolverCall)
    (hi : LifeInv base lost l s h) : LifeRel base (l.call c) (c.exec s h) := by
  cases c with
  | solve r => exact solve_rel r hi
  | setup r =>
    unfold Life.call SolverCall.exec
    simp only
    unfold solveSetup
    have hi2 := hi.alloc.alloc.setSetup
    obtain ⟨h1, hh1⟩ : ∃ h1, h1 = h.alloc.2 := ⟨_, rfl⟩
    obtain ⟨b, hb⟩ : ∃ b, b = h.alloc.1 := ⟨_, rfl⟩
    rw [← hh1, show h.next = b from hb.symm] at hi2
    simp only [← hh1, ← hb]
    obtain ⟨h2, hh2⟩ : ∃ h2, h2 = h1.alloc.2 := ⟨_, rfl⟩
    obtain ⟨x, hx⟩ : ∃ x, x = h1.alloc.1 := ⟨_, rfl⟩
    rw [← hh2, show h1.next = x from hx.symm] at hi2
    simp only [← hh2, ← hx]
    have := solve_rel r hi2
    cases hres : Life.solve r { l with setup := true } with
    | none =>
      rw [hres] at this
      have this : _ = none := this
      rw [this]
      exact rfl
    | some v =>
      obtain ⟨e, l'⟩ := v
      rw [hres] at this
      obtain ⟨s', h', lost', e', hi'⟩ := this
      simp only [e', Option.bind_eq_bind, Option.bind_some, Option.pure_def]
      cases e with
      | false =>
        obtain ⟨h3, e3, hi3⟩ := hi'.swap.free
        obtain ⟨h4, e4, hi4⟩ := hi3.free
        refine ⟨s', h4, lost', ?_, hi4⟩
        simp only [Bool.false_eq_true, if_false, e3, e4, Option.bind_some]
      | true =>
        refine ⟨s', h', b ::ₘ x ::ₘ lost', ?_, hi'.lose.lose⟩
        simp only [if_true, hi'.workDestroy_none, Option.bind_some]

theorem calls_rel {base : Multiset ℕ} (cs : List SolverCall) {lost : Multiset ℕ} {l : Life} {s : SolverMem} {h : Heap}
    (hi : LifeInv base lost l s h) :
    match l.calls cs with
    | none => runCalls cs s h = none
    | some (es, l') => ∃ s' h' lost', runCalls cs s h = some (es, s', h') ∧ LifeInv base lost' l' s' h' := by
  induction cs generalizing lost l s h with
  | nil => exact ⟨s, h, lost, rfl, hi⟩
  | cons c cs ih =>
    unfold Life.calls runCalls
    have := call_rel c hi
    cases hres : l.call c with
    | none =>
      rw [hres] at this
      have this : _ = none := this
      rw [this]
      exact rfl
    | some v =>
      obtain ⟨e, l1⟩ := v
      rw [hres] at this
      obtain ⟨s1, h1, lost1, e1, hi1⟩ := this
      have := ih hi1
      simp only [e1, Option.bind_eq_bind, Option.bind_some, Option.pure_def]
      cases hres2 : l1.calls cs with
      | none =>
        rw [hres2] at this
        simp only at this
        rw [this]
        exact rfl
      | some v =>
        obtain ⟨es, l2⟩ := v
        rw [hres2] at this
        obtain ⟨s2, h2, lost2, e2, hi2⟩ := this
        simp only [e2, Option.bind_some]
        exact ⟨s2, h2, lost2, rfl, hi2⟩

theorem destroy_rel {base lost : Multiset ℕ} {l : Life} {s : SolverMem} {h : Heap} (hi : LifeInv base lost l s h) :
    match l.close with
    | none => solverDestroy s h = none
    | some n => ∃ h', solverDestroy s h = some h' ∧ h'.live = base + lost ∧ lost.card = n ∧ h'.Fresh := by
  unfold Life.close solverDestroy
  simp only [hi.workDestroy_none, Option.bind_eq_bind, Option.bind_some]
  obtain ⟨rh, hrh⟩ : ∃ rh : Multiset ℕ, rh = if l.hist = .valid then optBlk s.rhistory else 0 := ⟨_, rfl⟩
  have e1 : h.live = optBlk s.d + (optBlk s.Ah + (rh + (s.self ::ₘ (base + lost)))) := by
    rw [hi.live, ← hrh]
    simp only [← Multiset.singleton_add]
    abel
  rw [Heap.free_opt e1, Option.bind_some, Heap.free_opt (h := ⟨_, h.next⟩) rfl, Option.bind_some]
  by_cases hd : l.hist = .dangling
  · rw [if_pos hd]
    obtain ⟨a, a1, a2, -⟩ := hi.dangling hd
    simp only
    rw [a1, Heap.free_dead, Option.bind_none]
    intro hm
    apply a2
    rw [e1]
    exact Multiset.mem_add.2 (Or.inr (Multiset.mem_add.2 (Or.inr hm)))
  · rw [if_neg hd]
    have e2 : rh = optBlk s.rhistory := by
      rw [hrh]
      cases hh : l.hist with
      | valid => rfl
      | dangling => exact absurd hh hd
      | null => rw [hi.null hh]; rfl
    simp only
    rw [Heap.free_opt (h := ⟨_, h.next⟩) (m := s.self ::ₘ (base + lost)) (by rw [e2]), Option.bind_some]
    refine ⟨_, Heap.free_eq (m := base + lost) rfl, rfl, hi.card, hi.fresh.sub ?_ le_rfl⟩
    rw [hi.live]
    simp only [Multiset.add_assoc]
    rw [← Multiset.add_assoc]
    exact Multiset.le_add_right _ _

/-- **C43.** For every list of calls and every pattern of failing steps: the life of the handle is free of double frees
exactly when the account says so, and when the handle has been destroyed the blocks in use are those that were in use
before it was created, and as many lost ones as the account says. -/
theorem handleLife_spec (cs : List SolverCall) {h : Heap} (hf : h.Fresh) :
    match (Life.fresh.calls cs).bind fun r => r.2.close with
    | none => handleLife cs h = none
    | some n => ∃ h' lost, handleLife cs h = some h' ∧ h'.live = h.live + lost ∧ lost.card = n ∧ h'.Fresh := by
  have := calls_rel cs (solverCreate_inv hf)
  unfold handleLife
  cases hres : Life.fresh.calls cs with
  | none =>
    rw [hres] at this
    simp only at this
    simp only [this, Option.bind_none, Option.bind_eq_bind]
  | some v =>
    obtain ⟨es, l⟩ := v
    rw [hres] at this
    obtain ⟨s', h', lost, e, hi⟩ := this
    simp only [e, Option.bind_some, Option.bind_eq_bind]
    have := destroy_rel hi
    cases hc : l.close with
    | none => rw [hc] at this; exact this
    | some n =>
      rw [hc] at this
      obtain ⟨h2, e1, e2, e3, e4⟩ := this
      exact ⟨h2, lost, e1, e2, e3, e4⟩

end Lis
