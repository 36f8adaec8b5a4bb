import Verif.Spec.SolverHalf
import Verif.Lemmas.Solver2

namespace Lis
variable {R S : Type} {n : ℕ}
variable [Zero R] [One R] [Add R] [Neg R] [Mul R] [Div R] [Sub R] [Star R] [DecidableEq R] [RealOps S]

/-- what one iteration does to status and history -/
def IterHalf (o : Opts R S) (tol : S) (brk : MHeap R n → Prop) (i : ℕ) (prev : S) (s : MSt R S n) {σ : Type} :
    ((σ × S) ⊕ Out S) × MSt R S n → Prop
  | (.inl st, s') => s'.h hB = s.h hB ∧ ¬ st.2 ≤ tol ∧ ∃ v, ¬ v ≤ tol ∧ Recorded o i v s.hist s'.hist
  | (.inr out, s') => s'.h hB = s.h hB ∧ out.iter = i ∧
      ((out.ret = .success ∧ out.resid ≤ tol ∧ ∃ v, (v = out.resid ∨ ¬ v ≤ tol) ∧ Recorded o i v s.hist s'.hist) ∨
       (out.ret = .breakdown ∧ brk s'.h ∧ ((out.resid = prev ∧ s'.hist = s.hist) ∨
          (¬ out.resid ≤ tol ∧ ∃ v, Recorded o i v s.hist s'.hist))))

/-- history so far -/
structure HInv (o : Opts R S) (tol junk : S) (b : Fin n → R) (a0 : Arr S) (i : ℕ) (v : S) (s : MSt R S n) :
    Prop where
  b : s.h hB = b
  size : s.hist.size = a0.size
  out : ∀ j, (o.mem = false ∨ j = 0 ∨ i ≤ j) → s.hist.get j = a0.get j
  fails : o.mem → ∀ j, 1 ≤ j → j < i → ¬ s.hist.get j ≤ tol
  last : i = 1 → v = junk ∧ s.hist = a0
  prev : i ≠ 1 → ¬ v ≤ tol

omit [Zero R] [One R] [Add R] [Neg R] [Mul R] [Div R] [Sub R] [Star R] [DecidableEq R] in
theorem HInv.step {o : Opts R S} {tol junk : S} {b : Fin n → R} {a0 : Arr S} {i : ℕ} {v v' v2 : S} {s s' : MSt R S n}
    (h : HInv o tol junk b a0 i v s) (h1 : 1 ≤ i) (hb : s'.h hB = s.h hB) (hv : ¬ v' ≤ tol) (hv2 : ¬ v2 ≤ tol)
    (hr : Recorded o i v' s.hist s'.hist) : HInv o tol junk b a0 (i + 1) v2 s' := by
  unfold Recorded at hr
  refine ⟨hb.trans h.b, ?_, ?_, ?_, by omega, fun _ => hv2⟩
  · rw [hr]; split <;> simp [h.size]
  · intro j hj
    rw [hr]
    split
    · rename_i hm
      rw [Arr.set_get_ne _ _ (by rcases hj with hj | hj | hj <;> [(simp [hm] at hj); omega; omega])]
      exact h.out j (by rcases hj with hj | hj | hj <;> [exact .inl hj; exact .inr (.inl hj); exact .inr (.inr (by omega))])
    · exact h.out j (.inl (by simpa using ‹¬ o.mem = true›))
  · intro hm j h1 h2
    rw [hr, if_pos hm, Arr.set_get]
    split
    · exact hv
    · exact h.fails hm j h1 (by omega)

omit [Zero R] [Div R] [Sub R] [DecidableEq R] in
theorem Ok_mainLoopHalf {K : Kit R S n} {σ : Type} {body : ℕ → σ × S → Prog R S ((σ × S) ⊕ Out S)} {o : Opts R S}
    {junk : S} {brk : MHeap R n → Prop} {s s1 : MSt R S n} {st : σ}
    (hinit : ¬ initialResOf K o s.h ≤ RealOps.fabs o.tol)
    (hsz : o.maxiter < s.hist.size) (hb : s1.h hB = s.h hB) (hh : s1.hist = s.hist)
    (hbody : ∀ i st s2, i < s2.hist.size → Ok ((body i st).run K s2) (IterHalf o (tolOf K o s.h) brk i st.2 s2)) :
    Ok ((mainLoop o.maxiter body (st, junk)).run K s1) fun r => ContractHalf K o junk brk s r.2 r.1 := by
  simp only [mainLoop, Prog.run_bind, Ok_obind]
  refine Ok_forIter (lo := 1) (fun i st s' => 1 ≤ i ∧ HInv o (tolOf K o s.h) junk (s.h hB) s.hist i st.2 s')
    o.maxiter 1 (st, junk) s1 ⟨le_rfl, ⟨hb, by rw [hh], fun j _ => by rw [hh], fun _ j _ _ => by omega,
      fun _ => ⟨rfl, hh⟩, by omega⟩⟩ ?_ ?_
  · rintro j st s' h1 h2 ⟨-, hI⟩
    obtain ⟨⟨r, s2⟩, hr, h⟩ := hbody j st s' (by rw [hI.size]; omega)
    refine ⟨_, hr, ?_⟩
    rcases r with st' | out
    · obtain ⟨hb2, hv, v, hv2, hrec⟩ := h
      exact ⟨by omega, hI.step h1 hb2 hv2 hv hrec⟩
    · simp only [IterHalf] at h
      simp only [Prog.run_pure, Ok_some]
      obtain ⟨hb2, hit, h⟩ := h
      have key : ∀ v, Recorded o j v s'.hist s2.hist → (s2.hist.size = s.hist.size ∧
          (∀ k, (o.mem = false ∨ k = 0 ∨ out.iter < k) → s2.hist.get k = s.hist.get k) ∧
          (o.mem → ∀ k, 1 ≤ k → k < out.iter → ¬ s2.hist.get k ≤ tolOf K o s.h) ∧
          (o.mem → s2.hist.get out.iter = v)) := by
        intro v hv
        unfold Recorded at hv
        rw [hit]
        refine ⟨?_, ?_, ?_, ?_⟩
        · rw [hv]; split <;> simp [hI.size]
        · intro k hk
          rw [hv]
          split
          · rename_i hm
            rw [Arr.set_get_ne _ _ (by rcases hk with hk | hk | hk <;> [(simp [hm] at hk); omega; omega])]
            exact hI.out k (by rcases hk with hk | hk | hk <;> [exact .inl hk; exact .inr (.inl hk); exact .inr (.inr (by omega))])
          · exact hI.out k (.inl (by simpa using ‹¬ o.mem = true›))
        · intro hm k h1 h2
          rw [hv, if_pos hm, Arr.set_get_ne _ _ (by omega)]
          exact hI.fails hm k h1 h2
        · intro hm
          rw [hv, if_pos hm]; simp
      rcases h with ⟨hret, hle, v, hv, hrec⟩ | ⟨hret, hbrk, h⟩
      · obtain ⟨k1, k2, k3, k4⟩ := key _ hrec
        exact ⟨hb2.trans hI.b, k1, k2, k3, .inr (.inl ⟨hinit, hret, by omega, by omega, hle, fun hm => by
          rw [k4 hm]; exact hv⟩)⟩
      · rcases h with ⟨hp, heq⟩ | ⟨hp, v, hrec⟩
        · refine ⟨hb2.trans hI.b, by rw [heq, hI.size], ?_, ?_, .inr (.inr (.inr ⟨hinit, hret, by omega, by omega, hbrk, ?_⟩))⟩
          · intro k hk
            rw [heq]
            exact hI.out k (by rcases hk with hk | hk | hk <;> [exact .inl hk; exact .inr (.inl hk); exact .inr (.inr (by omega))])
          · rw [heq, hit]; exact hI.fails
          · by_cases hj : j = 1
            · exact .inl ⟨by omega, by rw [hp]; exact (hI.last hj).1, by rw [heq]; exact (hI.last hj).2⟩
            · exact .inr (by rw [hp]; exact hI.prev hj)
        · obtain ⟨k1, k2, k3, k4⟩ := key _ hrec
          exact ⟨hb2.trans hI.b, k1, k2, k3, .inr (.inr (.inr ⟨hinit, hret, by omega, by omega, hbrk, .inr hp⟩))⟩
  · rintro st s' ⟨-, hI⟩
    simp only [Prog.run_pure, Ok_some]
    refine ⟨hI.b, hI.size, ?_, ?_, .inr (.inr (.inl ⟨hinit, rfl, rfl, ?_⟩))⟩
    · intro k hk
      exact hI.out k (by rcases hk with hk | hk | hk <;> [exact .inl hk; exact .inr (.inl hk); exact .inr (.inr (by simp only at hk; omega))])
    · intro hm k h1 h2
      exact hI.fails hm k h1 (by simp only at h2; omega)
    · split
      · exact (hI.last (by omega)).1
      · exact hI.prev (by omega)

theorem Ok_solverHalf {K : Kit R S n} {o : Opts R S} {junk : S} {brk : MHeap R n → Prop} {s : MSt R S n} {r : ℕ}
    {h : hX ≠ r} (hb : hB ≠ r) {rest : Tols S → Prog R S (Out S)}
    (hrest : ¬ initialResOf K o s.h ≤ RealOps.fabs o.tol → Ok ((rest ⟨bnrmOf K o s.h, tolOf K o s.h⟩).run K
      ⟨Function.update s.h r (r0Of K o s.h), s.hist⟩) fun x => ContractHalf K o junk brk s x.2 x.1) :
    Ok ((do match ← initialResidual o r h with
            | .inl out => pure out
            | .inr t => rest t).run K s) fun x => ContractHalf K o junk brk s x.2 x.1 := by
  simp only [Prog.run_bind, run_initialResidual K o r h hb, Option.bind_some]
  split
  · rename_i out heq
    split at heq
    · cases heq
      rename_i hle
      simp only [Prog.run_pure, Ok_some]
      exact ⟨by simp [Function.update_of_ne hb], rfl, fun _ _ => rfl, fun _ j h1 h2 => by simp only at h2; omega,
        .inl ⟨rfl, hle, by simp [Function.update_of_ne h], rfl⟩⟩
    · cases heq
  · rename_i t heq
    split at heq
    · cases heq
    · cases heq
      exact hrest ‹_›

end Lis
