import Verif.Spec.SolverLast
import Verif.Lemmas.Solver2

namespace Lis
variable {R S : Type} {n : ℕ}
variable [Zero R] [One R] [Add R] [Neg R] [Mul R] [Div R] [Sub R] [Star R] [DecidableEq R] [RealOps S]

/-- `i` iterations made so far, all missing the tolerance; `v` is the last residual -/
structure LInv (o : Opts R S) (tol : S) (b : Fin n → R) (a0 : Arr S) (i : ℕ) (v : S) (s : MSt R S n) : Prop where
  b : s.h hB = b
  size : s.hist.size = a0.size
  out : ∀ j, (o.mem = false ∨ j = 0 ∨ i < j) → s.hist.get j = a0.get j
  fails : o.mem → ∀ j, 1 ≤ j → j ≤ i → ¬ s.hist.get j ≤ tol
  last : 1 ≤ i → ¬ v ≤ tol ∧ (o.mem → s.hist.get i = v)

omit [Zero R] [One R] [Add R] [Neg R] [Mul R] [Div R] [Sub R] [Star R] [DecidableEq R] in
theorem LInv.step {o : Opts R S} {tol : S} {b : Fin n → R} {a0 : Arr S} {i : ℕ} {v v' : S} {s s' : MSt R S n}
    (h : LInv o tol b a0 i v s) (hb : s'.h hB = s.h hB) (hv : ¬ v' ≤ tol)
    (hr : Recorded o (i + 1) v' s.hist s'.hist) : LInv o tol b a0 (i + 1) v' s' := by
  unfold Recorded at hr
  refine ⟨hb.trans h.b, ?_, ?_, ?_, fun _ => ⟨hv, ?_⟩⟩
  · rw [hr]; split <;> simp [h.size]
  · intro j hj
    rw [hr]
    split
    · rename_i hm
      rw [Arr.set_get_ne _ _ (by rcases hj with hj | hj | hj <;> [(simp [hm] at hj); omega; omega])]
      exact h.out j (by rcases hj with hj | hj | hj <;> [exact .inl hj; exact .inr (.inl hj); exact .inr (.inr (by omega))])
    · exact h.out j (.inl (by simpa using ‹¬ o.mem = true›))
  · intro hm j h1 h2
    rw [hr, if_pos hm, Arr.set_get]
    split
    · exact hv
    · exact h.fails hm j h1 (by omega)
  · intro hm
    rw [hr, if_pos hm]; simp

omit [Zero R] [Div R] [Sub R] [Star R] [DecidableEq R] in
theorem LInv.success {K : Kit R S n} {o : Opts R S} {i last : ℕ} {v v' : S} {s0 s s' : MSt R S n}
    (h : LInv o (tolOf K o s0.h) (s0.h hB) s0.hist i v s) (hinit : ¬ initialResOf K o s0.h ≤ RealOps.fabs o.tol)
    (hb : s'.h hB = s.h hB) (hv : v' ≤ tolOf K o s0.h)
    (hr : Recorded o (i + 1) v' s.hist s'.hist) (hl : i + 1 ≤ last) :
    ContractLast K o last s0 s' ⟨.success, i + 1, v'⟩ := by
  unfold Recorded at hr
  refine ⟨hb.trans h.b, ?_, ?_, ?_, .inr (.inl ⟨hinit, rfl, Nat.succ_le_succ (Nat.zero_le _), hl, hv, ?_⟩)⟩
  · rw [hr]; split <;> simp [h.size]
  · intro j hj
    simp only at hj
    rw [hr]
    split
    · rename_i hm
      rw [Arr.set_get_ne _ _ (by rcases hj with hj | hj | hj <;> [(simp [hm] at hj); omega; omega])]
      exact h.out j (by rcases hj with hj | hj | hj <;> [exact .inl hj; exact .inr (.inl hj); exact .inr (.inr (by omega))])
    · exact h.out j (.inl (by simpa using ‹¬ o.mem = true›))
  · intro hm j h1 h2
    simp only at h2
    rw [hr, if_pos hm, Arr.set_get_ne _ _ (by omega)]
    exact h.fails hm j h1 (by omega)
  · intro hm
    rw [hr, if_pos hm]; simp

omit [Zero R] [Div R] [Sub R] [Star R] [DecidableEq R] in
theorem LInv.maxiter {K : Kit R S n} {o : Opts R S} {i : ℕ} {v : S} {s0 s : MSt R S n}
    (h : LInv o (tolOf K o s0.h) (s0.h hB) s0.hist i v s) (hinit : ¬ initialResOf K o s0.h ≤ RealOps.fabs o.tol)
    (hi : 1 ≤ i) : ContractLast K o i s0 s ⟨.maxiter, i, v⟩ :=
  ⟨h.b, h.size, h.out, fun hm j h1 h2 => h.fails hm j h1 (Nat.le_of_lt h2),
    .inr (.inr ⟨hinit, rfl, rfl, (h.last hi).1, (h.last hi).2⟩)⟩

/-- initial residual, then the rest -/
theorem Ok_solverLast {K : Kit R S n} {o : Opts R S} {last : ℕ} {s : MSt R S n} {r : ℕ}
    {h : hX ≠ r} (hb : hB ≠ r) {rest : Tols S → Prog R S (Out S)}
    (hrest : ¬ initialResOf K o s.h ≤ RealOps.fabs o.tol → Ok ((rest ⟨bnrmOf K o s.h, tolOf K o s.h⟩).run K
      ⟨Function.update s.h r (r0Of K o s.h), s.hist⟩) fun x => ContractLast K o last s x.2 x.1) :
    Ok ((do match ← initialResidual o r h with
            | .inl out => pure out
            | .inr t => rest t).run K s) fun x => ContractLast K o last s x.2 x.1 := by
  simp only [Prog.run_bind, run_initialResidual K o r h hb, Option.bind_some]
  split
  · rename_i out heq
    split at heq
    · cases heq
      rename_i hle
      simp only [Prog.run_pure, Ok_some]
      exact ⟨by simp [Function.update_of_ne hb], rfl, fun _ _ => rfl, fun _ j h1 h2 => by simp only at h2; omega,
        .inl ⟨rfl, hle, by simp [Function.update_of_ne h], rfl⟩⟩
    · cases heq
  · rename_i t heq
    split at heq
    · cases heq
    · cases heq
      exact hrest ‹_›

end Lis
