import Verif.Props.Lifetime

/-!
# C43, in the user's terms: safe and leak-free histories, and the histories that are not
-/

namespace Lis

def SolverCall.run : SolverCall → Run
  | .solve r => r
  | .setup r => r

/-- the account of a completed call -/
theorem Life.solve_completes {r : Run} (hr : r.Completes) {l : Life} (hl : l.hist ≠ .dangling) :
    l.solve r = some (false, ⟨.valid, l.hasD || r.scaling = Scaling.diag, l.hasAh || r.useAt, l.setup,
      l.lost + (if r.scaling = Scaling.block then 1 else 0) + (if r.useAt ∧ l.hasAh then 1 else 0),
      l.executed + if l.setup then 0 else 1⟩) := by
  obtain ⟨h1, h2, h3, h4, h5, h6, h7, h8⟩ := hr
  unfold Life.solve Life.rest
  have hno : ¬ ((r.scaling = Scaling.diag ∧ l.hasD = false ∧ r.dOk = false) ∨
      (r.scaling = Scaling.block ∧ r.blockOk = false)) := by
    rintro (⟨a, -, b⟩ | ⟨a, b⟩)
    · rw [h5 a] at b; cases b
    · rw [h6 a] at b; cases b
  simp only [h1, h2, h3, h4, h7, h8, hl, hno, Bool.not_true, Bool.or_self, Bool.false_eq_true, if_false, false_and]

theorem Life.setup_completes {r : Run} (hr : r.Completes) {l : Life} (hl : l.hist ≠ .dangling) :
    l.call (.setup r) = some (false, ⟨.valid, l.hasD || r.scaling = Scaling.diag, l.hasAh || r.useAt, true,
      l.lost + (if r.scaling = Scaling.block then 1 else 0) + (if r.useAt ∧ l.hasAh then 1 else 0), l.executed⟩) := by
  have := Life.solve_completes (l := { l with setup := true }) hr hl
  unfold Life.call
  simp only [this, Option.bind_eq_bind, Option.bind_some, Option.pure_def, Bool.false_eq_true, if_false, if_true,
    Nat.add_zero]

theorem Life.call_completes {c : SolverCall} (hr : c.run.Completes) {l : Life} (hl : l.hist ≠ .dangling) :
    ∃ l', l.call c = some (false, l') ∧ l'.hist = .valid ∧ (l'.hasAh = (l.hasAh || c.run.useAt)) ∧
      l'.lost = l.lost + (if c.run.scaling = Scaling.block then 1 else 0) + (if c.run.useAt ∧ l.hasAh then 1 else 0) ∧
      (l.setup → l'.setup ∧ l'.executed = l.executed) := by
  cases c with
  | solve r =>
    refine ⟨_, Life.solve_completes hr hl, rfl, rfl, rfl, fun hs => ⟨hs, ?_⟩⟩
    simp [hs]
  | setup r =>
    have hr' : r.Completes := hr
    refine ⟨_, Life.setup_completes hr' hl, rfl, rfl, rfl, fun _ => ⟨rfl, rfl⟩⟩

/-- how many calls of a history scale by blocks, and how many ask for the transposed matrix -/
def nBlock (cs : List SolverCall) : ℕ := cs.countP fun c => c.run.scaling = Scaling.block
def nAh (cs : List SolverCall) : ℕ := cs.countP fun c => c.run.useAt

theorem Life.calls_completes (cs : List SolverCall) (hc : ∀ c ∈ cs, c.run.Completes) {l : Life}
    (hl : l.hist ≠ .dangling) :
    ∃ l', l.calls cs = some (cs.map fun _ => false, l') ∧ l'.hist ≠ .dangling ∧ (cs ≠ [] → l'.hist = .valid) ∧
      l'.hasAh = (l.hasAh || decide (nAh cs ≠ 0)) ∧
      l'.lost = l.lost + nBlock cs + (nAh cs - if l.hasAh then 0 else 1) ∧
      (l.setup → l'.setup ∧ l'.executed = l.executed) := by
  induction cs generalizing l with
  | nil => exact ⟨l, rfl, hl, fun h => absurd rfl h, by simp [nAh], by simp [nAh, nBlock], fun h => ⟨h, rfl⟩⟩
  | cons c cs ih =>
    obtain ⟨l1, e1, v1, a1, n1, x1⟩ := Life.call_completes (hc c List.mem_cons_self) hl
    obtain ⟨l2, e2, v2, w2, a2, n2, x2⟩ := ih (fun c h => hc c (List.mem_cons_of_mem _ h)) (l := l1)
      (by rw [v1]; simp)
    refine ⟨l2, ?_, v2, fun _ => ?_, ?_, ?_, fun hs => ?_⟩
    · unfold Life.calls
      simp only [e1, e2, Option.bind_eq_bind, Option.bind_some, Option.pure_def, List.map_cons]
    · by_cases hcs : cs = []
      · subst hcs
        cases e2; exact v1
      · exact w2 hcs
    · rw [a2, a1]
      unfold nAh
      rw [List.countP_cons]
      cases l.hasAh <;> cases c.run.useAt <;> simp
    · rw [n2, n1, a1]
      unfold nAh nBlock
      rw [List.countP_cons, List.countP_cons]
      cases l.hasAh <;> cases c.run.useAt <;> simp <;> omega
    · have h1 := x1 hs
      have h2 := x2 h1.1
      exact ⟨h2.1, by rw [h2.2, h1.2]⟩

theorem Life.calls_append (cs ds : List SolverCall) (l : Life) :
    l.calls (cs ++ ds) = (l.calls cs).bind fun r => (r.2.calls ds).map fun t => (r.1 ++ t.1, t.2) := by
  induction cs generalizing l with
  | nil =>
    show l.calls ds = (some ([], l) : Option (List Bool × Life)).bind _
    simp
  | cons c cs ih =>
    show (do
      let (e, l) ← l.call c
      let (es, l) ← Life.calls (cs ++ ds) l
      pure (e :: es, l)) = _
    cases hc : l.call c with
    | none => simp [Life.calls, hc]
    | some v =>
      obtain ⟨e, l1⟩ := v
      simp only [Option.bind_eq_bind, Option.bind_some, ih, Option.pure_def, Life.calls, hc]
      cases hc2 : l1.calls cs with
      | none => simp
      | some w =>
        obtain ⟨es, l2⟩ := w
        simp only [Option.bind_some]
        cases l2.calls ds <;> simp

/-- **C43, completed calls.** A history of calls that all go through: every one returns success, nothing is freed twice, and after `lis_solver_destroy` what is still in use beyond what was there before
is one block for every call scaled by blocks and one for every use of the transposed matrix but the last. -/
theorem handle_completed (cs : List SolverCall) (hc : ∀ c ∈ cs, c.run.Completes) {h : Heap} (hf : h.Fresh) :
    ∃ h' lost, handleLife cs h = some h' ∧ h'.live = h.live + lost ∧ lost.card = nBlock cs + (nAh cs - 1) := by
  obtain ⟨l, e, hl, -, -, hn, -⟩ := Life.calls_completes cs hc (l := Life.fresh) (by simp [Life.fresh])
  have := handleLife_spec cs hf
  have hcl : l.close = some l.lost := by unfold Life.close; rw [if_neg hl]
  simp only [e, Option.bind_some, hcl] at this
  obtain ⟨h', lost, e1, e2, e3, -⟩ := this
  exact ⟨h', lost, e1, e2, by rw [e3, hn]; simp [Life.fresh]⟩

/-- **C43, no leak.** Without block scaling and without `-use_at`, completed calls leave nothing behind. -/
theorem handle_no_leak (cs : List SolverCall) (hc : ∀ c ∈ cs, c.run.Completes)
    (hb : ∀ c ∈ cs, c.run.scaling ≠ Scaling.block) (hu : ∀ c ∈ cs, c.run.useAt = false) {h : Heap} (hf : h.Fresh) :
    ∃ h', handleLife cs h = some h' ∧ h'.live = h.live := by
  obtain ⟨h', lost, e1, e2, e3⟩ := handle_completed cs hc hf
  have z1 : nBlock cs = 0 := by
    unfold nBlock; rw [List.countP_eq_zero]; intro c hm; simpa using hb c hm
  have z2 : nAh cs = 0 := by
    unfold nAh; rw [List.countP_eq_zero]; intro c hm; simpa using hu c hm
  rw [z1, z2] at e3
  have : lost = 0 := Multiset.card_eq_zero.1 (by simpa using e3)
  exact ⟨h', e1, by rw [e2, this, Multiset.add_zero]⟩

/-- a failure after the old residual history has been released and before the new one is attached: the history cannot
be allocated, `solver->d` cannot, the block scaling fails, the conversion of the matrix fails, or the work vectors
cannot be allocated -/
def Run.FailsLate (r : Run) : Prop :=
  r.preconOk ∧ r.paramOk ∧ r.xxOk ∧ (r.rhistOk = false ∨ (r.scaling = Scaling.block ∧ r.blockOk = false) ∨
    r.convOk = false ∨ r.workOk = false)

theorem Life.solve_failsLate {r : Run} (hr : r.FailsLate) {l : Life} (hl : l.hist = .valid) :
    ∃ e l', l.solve r = some (e, l') ∧ l'.hist = .dangling := by
  obtain ⟨h1, h2, h3, h4⟩ := hr
  unfold Life.solve Life.rest
  simp only [h1, h2, h3, hl, Bool.not_true, Bool.or_self, Bool.false_eq_true, if_false, reduceCtorEq, Life.release]
  by_cases hrh : r.rhistOk
  · simp only [hrh, Bool.not_true, Bool.false_eq_true, if_false]
    split
    · exact ⟨_, _, rfl, rfl⟩
    · rename_i hno
      cases hco : r.convOk
      · simp only [Bool.not_false, if_true]; exact ⟨_, _, rfl, rfl⟩
      · cases hwo : r.workOk
        · simp only [Bool.not_true, Bool.not_false, if_true, Bool.false_eq_true, if_false]; exact ⟨_, _, rfl, rfl⟩
        · exfalso
          rcases h4 with h | h | h | h
          · rw [hrh] at h; cases h
          · exact hno (Or.inr h)
          · rw [hco] at h; cases h
          · rw [hwo] at h; cases h
  · simp only [Bool.not_eq_true] at hrh
    simp only [hrh, Bool.not_false, if_true]
    exact ⟨_, _, rfl, rfl⟩

/-- **C43, finding.** One completed solve, then a solve that fails late: the handle keeps a pointer to the residual
history already freed, and `lis_solver_destroy` (or any further solve that passes the parameter checks) frees it again. -/
theorem handle_double_free (cs : List SolverCall) (hc : ∀ c ∈ cs, c.run.Completes) (hne : cs ≠ []) {r : Run}
    (hr : r.FailsLate) {h : Heap} (hf : h.Fresh) : handleLife (cs ++ [.solve r]) h = none := by
  obtain ⟨l, e, -, hv, -⟩ := Life.calls_completes cs hc (l := Life.fresh) (by simp [Life.fresh])
  obtain ⟨b, l', e', hd⟩ := Life.solve_failsLate hr (hv hne)
  have := handleLife_spec (cs ++ [.solve r]) hf
  have hcl : l'.close = none := by unfold Life.close; rw [if_pos hd]
  rw [Life.calls_append, e] at this
  simp only [Option.bind_some, Life.calls, Life.call, e', Option.bind_eq_bind, Option.pure_def, Option.map_some,
    hcl] at this
  exact this

/-- **C43, finding.** A call refused by the parameter checks of `lis_solve_kernel` leaks the preconditioner: `n` refused
calls, `n` blocks. -/
theorem refused_leaks (cs : List SolverCall) (hc : ∀ c ∈ cs, ∃ r, c = .solve r ∧ r.preconOk ∧ r.paramOk = false) {h : Heap}
    (hf : h.Fresh) : ∃ h' lost, handleLife cs h = some h' ∧ h'.live = h.live + lost ∧ lost.card = cs.length := by
  have key : ∀ (cs : List SolverCall), (∀ c ∈ cs, ∃ r, c = .solve r ∧ r.preconOk ∧ r.paramOk = false) → ∀ l : Life,
      ∃ es, l.calls cs = some (es, { l with lost := l.lost + cs.length }) := by
    intro cs
    induction cs with
    | nil => intro _ l; exact ⟨[], rfl⟩
    | cons c cs ih =>
      intro hc l
      obtain ⟨r, rfl, h1, h2⟩ := hc c List.mem_cons_self
      obtain ⟨es, he⟩ := ih (fun c h => hc c (List.mem_cons_of_mem _ h)) { l with lost := l.lost + 1 }
      refine ⟨true :: es, ?_⟩
      unfold Life.calls Life.call Life.solve
      simp only [h1, h2, Bool.not_true, Bool.not_false, Bool.true_or, Bool.false_eq_true, if_false, if_true,
        Option.bind_eq_bind, Option.bind_some, he, Option.pure_def, List.length_cons]
      rw [show l.lost + 1 + cs.length = l.lost + (cs.length + 1) by omega]
  obtain ⟨es, he⟩ := key cs hc Life.fresh
  have := handleLife_spec cs hf
  rw [he] at this
  obtain ⟨h', lost, e1, e2, e3, -⟩ := this
  exact ⟨h', lost, e1, e2, by rw [e3]; simp [Life.fresh]⟩

/-- **C43, finding.** After `lis_solve_setup` the flag that keeps the solver from running is never reset: every further
`lis_solve` on the handle returns success and no solver runs. -/
theorem setup_disables_solve (r : Run) (cs : List SolverCall) (hr : r.Completes) (hc : ∀ c ∈ cs, c.run.Completes) {h : Heap}
    (hf : h.Fresh) : ∃ s h', (runCalls (.setup r :: cs) (solverCreate h).1 (solverCreate h).2) =
      some (false :: cs.map (fun _ => false), s, h') ∧ s.executed = 0 := by
  have hcall : ∃ l1, Life.fresh.call (.setup r) = some (false, l1) ∧ l1.hist = .valid ∧ l1.setup = true ∧
      l1.executed = 0 := by
    exact ⟨_, Life.setup_completes hr (by simp [Life.fresh]), rfl, rfl, rfl⟩
  obtain ⟨l1, e1, v1, s1, x1⟩ := hcall
  obtain ⟨l2, e2, -, -, -, -, x2⟩ := Life.calls_completes cs hc (l := l1) (by rw [v1]; simp)
  have := calls_rel (.setup r :: cs) (solverCreate_inv hf)
  unfold Life.calls at this
  simp only [e1, e2, Option.bind_eq_bind, Option.bind_some, Option.pure_def] at this
  obtain ⟨s', h', lost, e, hi⟩ := this
  exact ⟨s', h', e, by rw [hi.exec, (x2 s1).2, x1]⟩

/-- **C43, finding.** When the residual history cannot be allocated (a huge `-maxiter`), `lis_solve` returns success
although no solver has run. -/
theorem history_failure_is_success {r : Run} (h1 : r.preconOk) (h2 : r.paramOk) (h3 : r.xxOk) (h4 : r.rhistOk = false)
    {h : Heap} (hf : h.Fresh) : ∃ s h', solve r (solverCreate h).1 (solverCreate h).2 = some (false, s, h') ∧
      s.executed = 0 := by
  have := solve_rel r (solverCreate_inv hf)
  have e : Life.fresh.solve r = some (false, Life.fresh) := by
    unfold Life.solve Life.rest
    simp only [h1, h2, h3, h4, Life.fresh, Life.release, Bool.not_true, Bool.not_false, Bool.or_self, Bool.false_eq_true,
      if_false, if_true, reduceCtorEq]
  rw [e] at this
  obtain ⟨s', h', lost, e, hi⟩ := this
  exact ⟨s', h', e, hi.exec⟩

/-! ### the hypotheses are met -/

/-- an ordinary call: CG, Jacobi scaling with `solver->d` -/
def runCg : Run := ⟨true, true, true, true, .diag, true, true, true, true, 4, false, false⟩

example : runCg.Completes := by simp [Run.Completes, runCg]
example : (⟨{3, 5}, 6⟩ : Heap).Fresh := ⟨by decide, by decide⟩
example : ({ runCg with convOk := false } : Run).FailsLate := by simp [Run.FailsLate, runCg]
/-- three solves, one of them refused: one block lost -/
example : ((handleLife [.solve runCg, .solve { runCg with paramOk := false }, .solve runCg] ⟨{3, 5}, 6⟩).map
    fun h => h.live.card) = some 3 := by decide +kernel
example : ((handleLife [.solve runCg, .solve { runCg with convOk := false }] ⟨{3, 5}, 6⟩).map
    fun h => h.live.card) = none := by decide +kernel
/-- a MINRES run that hits the iteration limit destroys its work vectors twice, which does nothing the second time -/
example : ((handleLife [.solve { runCg with minresMaxiter := true, nwork := 7 }] ⟨{3, 5}, 6⟩).map
    fun h => h.live.card) = some 2 := by decide +kernel

end Lis
