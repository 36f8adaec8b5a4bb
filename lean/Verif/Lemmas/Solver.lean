import Verif.Spec.Solver
import Verif.Props.Machine

namespace Lis
variable {R S : Type} {n : ℕ}
variable [Zero R] [One R] [Add R] [Neg R] [Mul R] [Div R] [Sub R] [Star R] [DecidableEq R] [RealOps S]

/-- `hist` after an iteration that recorded `v` -/
def Recorded (o : Opts R S) (i : ℕ) (v : S) (a a' : Arr S) : Prop := a' = if o.mem then a.set i v else a

/-- what one iteration does to status and history -/
def IterOk (o : Opts R S) (tol : S) (brk : MHeap R n → Prop) (i : ℕ) (prev : S) (s : MSt R S n) {σ : Type} :
    ((σ × S) ⊕ Out S) × MSt R S n → Prop
  | (.inl st, s') => s'.h hB = s.h hB ∧ ¬ st.2 ≤ tol ∧ Recorded o i st.2 s.hist s'.hist
  | (.inr out, s') => s'.h hB = s.h hB ∧ out.iter = i ∧
      ((out.ret = .success ∧ out.resid ≤ tol ∧ Recorded o i out.resid s.hist s'.hist) ∨
       (out.ret = .breakdown ∧ brk s'.h ∧ ((out.resid = prev ∧ s'.hist = s.hist) ∨
          (¬ out.resid ≤ tol ∧ Recorded o i out.resid s.hist s'.hist))))

omit [Zero R] [One R] [Neg R] [Div R] [Sub R] [DecidableEq R] [RealOps S] in
theorem Ok_forIter {K : Kit R S n} {σ : Type} {body : ℕ → σ → Prog R S (σ ⊕ Out S)} {lo : ℕ}
    (I : ℕ → σ → MSt R S n → Prop) {Q : (σ ⊕ Out S) × MSt R S n → Prop} :
    ∀ (k i : ℕ) (st : σ) (s : MSt R S n), I i st s →
      (∀ j st s, i ≤ j → j < i + k → I j st s → Ok ((body j st).run K s) fun r =>
        match r.1 with
        | .inl st' => I (j + 1) st' r.2
        | .inr out => Q (.inr out, r.2)) →
      (∀ st s, I (i + k) st s → Q (.inl st, s)) →
      Ok ((forIter body k i st).run K s) Q := by
  intro k
  induction k with
  | zero => intro i st s hI hb hq; simpa [forIter] using hq st s hI
  | succ k ih =>
    intro i st s hI hb hq
    simp only [forIter, Prog.run_bind, Ok_obind]
    obtain ⟨⟨r, s'⟩, hr, h⟩ := hb i st s (by omega) (by omega) hI
    refine ⟨_, hr, ?_⟩
    rcases r with st' | out
    · simp only at h ⊢
      refine ih (i + 1) st' s' h (fun j st s h1 h2 => hb j st s (by omega) (by omega)) ?_
      intro st s h
      exact hq st s (by rwa [show i + (k + 1) = i + 1 + k by omega])
    · simpa using h

/-- history so far: only entries `1..i-1` written, all missing the tolerance; `v` is the last residual -/
structure LoopInv (o : Opts R S) (tol junk : S) (b : Fin n → R) (a0 : Arr S) (i : ℕ) (v : S) (s : MSt R S n) :
    Prop where
  b : s.h hB = b
  size : s.hist.size = a0.size
  out : ∀ j, (o.mem = false ∨ j = 0 ∨ i ≤ j) → s.hist.get j = a0.get j
  fails : o.mem → ∀ j, 1 ≤ j → j < i → ¬ s.hist.get j ≤ tol
  last : i = 1 → v = junk ∧ s.hist = a0
  prev : i ≠ 1 → ¬ v ≤ tol ∧ (o.mem → s.hist.get (i - 1) = v)

theorem LoopInv.step {o : Opts R S} {tol junk : S} {b : Fin n → R} {a0 : Arr S} {i : ℕ} {v v' : S} {s s' : MSt R S n}
    (h : LoopInv o tol junk b a0 i v s) (h1 : 1 ≤ i) (hb : s'.h hB = s.h hB) (hv : ¬ v' ≤ tol)
    (hr : Recorded o i v' s.hist s'.hist) : LoopInv o tol junk b a0 (i + 1) v' s' := by
  unfold Recorded at hr
  refine ⟨hb.trans h.b, ?_, ?_, ?_, by omega, fun _ => ⟨hv, ?_⟩⟩
  · rw [hr]; split <;> simp [h.size]
  · intro j hj
    rw [hr]
    split
    · rename_i hm
      rw [Arr.set_get_ne _ _ (by rcases hj with hj | hj | hj <;> [(simp [hm] at hj); omega; omega])]
      exact h.out j (by rcases hj with hj | hj | hj <;> [exact .inl hj; exact .inr (.inl hj); exact .inr (.inr (by omega))])
    · exact h.out j (.inl (by simpa using ‹¬ o.mem = true›))
  · intro hm j h1 h2
    rw [hr, if_pos hm, Arr.set_get]
    split
    · exact hv
    · exact h.fails hm j h1 (by omega)
  · intro hm
    rw [hr, if_pos hm]; simp

theorem Ok_mainLoopI {K : Kit R S n} {σ : Type} {body : ℕ → σ × S → Prog R S ((σ × S) ⊕ Out S)} {o : Opts R S}
    {junk : S} {brk : MHeap R n → Prop} {s s1 : MSt R S n} {st : σ} (J : ℕ → σ → Prop)
    (hinit : ¬ initialResOf K o s.h ≤ RealOps.fabs o.tol)
    (hsz : o.maxiter < s.hist.size) (hb : s1.h hB = s.h hB) (hh : s1.hist = s.hist) (hJ : J 1 st)
    (hbody : ∀ i st s2, 1 ≤ i → i < s2.hist.size → J i st.1 → Ok ((body i st).run K s2) fun r =>
      IterOk o (tolOf K o s.h) brk i st.2 s2 r ∧ ∀ st', r.1 = .inl st' → J (i + 1) st'.1) :
    Ok ((mainLoop o.maxiter body (st, junk)).run K s1) fun r => Contract K o junk brk s r.2 r.1 := by
  simp only [mainLoop, Prog.run_bind, Ok_obind]
  refine Ok_forIter (lo := 1) (fun i st s' => 1 ≤ i ∧ J i st.1 ∧ LoopInv o (tolOf K o s.h) junk (s.h hB) s.hist i st.2 s')
    o.maxiter 1 (st, junk) s1 ⟨le_rfl, hJ, ⟨hb, by rw [hh], fun j _ => by rw [hh], fun _ j _ _ => by omega,
      fun _ => ⟨rfl, hh⟩, by omega⟩⟩ ?_ ?_
  · rintro j st s' h1 h2 ⟨-, hJ, hI⟩
    obtain ⟨⟨r, s2⟩, hr, h, hJ'⟩ := hbody j st s' h1 (by rw [hI.size]; omega) hJ
    refine ⟨_, hr, ?_⟩
    rcases r with st' | out
    · simp only [IterOk] at h ⊢
      exact ⟨by omega, hJ' _ rfl, hI.step h1 h.1 h.2.1 h.2.2⟩
    · simp only [IterOk] at h
      simp only [Prog.run_pure, Ok_some]
      obtain ⟨hb2, hit, h⟩ := h
      have key : ∀ v, Recorded o j v s'.hist s2.hist → (s2.hist.size = s.hist.size ∧
          (∀ k, (o.mem = false ∨ k = 0 ∨ out.iter < k) → s2.hist.get k = s.hist.get k) ∧
          (o.mem → ∀ k, 1 ≤ k → k < out.iter → ¬ s2.hist.get k ≤ tolOf K o s.h) ∧
          (o.mem → s2.hist.get out.iter = v)) := by
        intro v hv
        unfold Recorded at hv
        rw [hit]
        refine ⟨?_, ?_, ?_, ?_⟩
        · rw [hv]; split <;> simp [hI.size]
        · intro k hk
          rw [hv]
          split
          · rename_i hm
            rw [Arr.set_get_ne _ _ (by rcases hk with hk | hk | hk <;> [(simp [hm] at hk); omega; omega])]
            exact hI.out k (by rcases hk with hk | hk | hk <;> [exact .inl hk; exact .inr (.inl hk); exact .inr (.inr (by omega))])
          · exact hI.out k (.inl (by simpa using ‹¬ o.mem = true›))
        · intro hm k h1 h2
          rw [hv, if_pos hm, Arr.set_get_ne _ _ (by omega)]
          exact hI.fails hm k h1 h2
        · intro hm
          rw [hv, if_pos hm]; simp
      rcases h with ⟨hret, hle, hrec⟩ | ⟨hret, hbrk, h⟩
      · obtain ⟨k1, k2, k3, k4⟩ := key _ hrec
        exact ⟨hb2.trans hI.b, k1, k2, k3, .inr (.inl ⟨hinit, hret, by omega, by omega, hle, k4⟩)⟩
      · rcases h with ⟨hp, heq⟩ | ⟨hp, hrec⟩
        · refine ⟨hb2.trans hI.b, by rw [heq, hI.size], ?_, ?_, .inr (.inr (.inr ⟨hinit, hret, by omega, by omega, hbrk, ?_⟩))⟩
          · intro k hk
            rw [heq]
            exact hI.out k (by rcases hk with hk | hk | hk <;> [exact .inl hk; exact .inr (.inl hk); exact .inr (.inr (by omega))])
          · rw [heq, hit]; exact hI.fails
          · by_cases hj : j = 1
            · exact .inl ⟨by omega, by rw [hp]; exact (hI.last hj).1, by rw [heq]; exact (hI.last hj).2⟩
            · exact .inr (by rw [hp]; exact (hI.prev hj).1)
        · obtain ⟨k1, k2, k3, k4⟩ := key _ hrec
          exact ⟨hb2.trans hI.b, k1, k2, k3, .inr (.inr (.inr ⟨hinit, hret, by omega, by omega, hbrk, .inr hp⟩))⟩
  · rintro st s' ⟨-, -, hI⟩
    simp only [Prog.run_pure, Ok_some]
    refine ⟨hI.b, hI.size, ?_, ?_, .inr (.inr (.inl ⟨hinit, rfl, rfl, ?_⟩))⟩
    · intro k hk
      exact hI.out k (by rcases hk with hk | hk | hk <;> [exact .inl hk; exact .inr (.inl hk); exact .inr (.inr (by simp only at hk; omega))])
    · intro hm k h1 h2
      exact hI.fails hm k h1 (by simp only at h2; omega)
    · split
      · exact (hI.last (by omega)).1
      · obtain ⟨h1, h2⟩ := hI.prev (by omega)
        exact ⟨h1, fun hm => by simpa using h2 hm⟩

theorem Ok_mainLoop {K : Kit R S n} {σ : Type} {body : ℕ → σ × S → Prog R S ((σ × S) ⊕ Out S)} {o : Opts R S}
    {junk : S} {brk : MHeap R n → Prop} {s s1 : MSt R S n} {st : σ} (hinit : ¬ initialResOf K o s.h ≤ RealOps.fabs o.tol)
    (hsz : o.maxiter < s.hist.size) (hb : s1.h hB = s.h hB) (hh : s1.hist = s.hist)
    (hbody : ∀ i st s2, i < s2.hist.size → Ok ((body i st).run K s2) (IterOk o (tolOf K o s.h) brk i st.2 s2)) :
    Ok ((mainLoop o.maxiter body (st, junk)).run K s1) fun r => Contract K o junk brk s r.2 r.1 :=
  Ok_mainLoopI (fun _ _ => True) hinit hsz hb hh trivial fun i st s2 _ hi _ =>
    (hbody i st s2 hi).mono fun _ h => ⟨h, fun _ _ => trivial⟩

omit [Zero R] [One R] [Neg R] [Div R] [Sub R] [DecidableEq R] [RealOps S] in
theorem Prog.run_ite (K : Kit R S n) {α : Type} (c : Prop) [Decidable c] (p q : Prog R S α) (s : MSt R S n) :
    (if c then p else q).run K s = if c then p.run K s else q.run K s := by split <;> rfl

theorem run_initialResidual (K : Kit R S n) (o : Opts R S) (r : ℕ) (h : hX ≠ r) (hb : hB ≠ r) (s : MSt R S n) :
    (initialResidual o r h).run K s =
      some (if initialResOf K o s.h ≤ RealOps.fabs o.tol then .inl ⟨.success, 1, initialResOf K o s.h⟩
        else .inr ⟨bnrmOf K o s.h, tolOf K o s.h⟩, ⟨Function.update s.h r (r0Of K o s.h), s.hist⟩) := by
  unfold initialResidual initialP initialNorms initialResOf bnrmOf refNorm tolOf r0Of
  cases o.initZero <;> cases o.conv <;>
    simp [Function.update_idem, Function.update_of_ne hb, Prog.run_ite] <;> split_ifs <;> simp_all

omit [Zero R] [One R] [Neg R] [Div R] [Sub R] [DecidableEq R] in
theorem run_getResidual (K : Kit R S n) (c : Conv) (t : Tols S) (r : ℕ) (s : MSt R S n) :
    (getResidual c t r : Prog R S S).run K s = some (resOf K c t.bnrm (s.h r), s) := by
  cases c <;> simp [getResidual, resOf]

omit [Zero R] [One R] [Neg R] [Div R] [Sub R] [DecidableEq R] in
theorem run_checkResid (K : Kit R S n) (o : Opts R S) (t : Tols S) (i r : ℕ) (s : MSt R S n) (hi : i < s.hist.size) :
    (checkResid o t i r : Prog R S S).run K s =
      some (resOf K o.conv t.bnrm (s.h r), ⟨s.h, if o.mem then s.hist.set i (resOf K o.conv t.bnrm (s.h r)) else s.hist⟩) := by
  simp [checkResid, run_getResidual, Prog.run_ite, run_setHist, hi]
  split <;> rfl


/-! ### stepping through programs: every new vector value is a fresh variable -/

/-- the vector a call assigns -/
def VOp.dst : VOp R → ℕ
  | .copy _ y => y | .axpy _ _ y => y | .xpay _ _ y => y | .axpyz _ _ _ z => z | .scale _ x => x | .setAll _ x => x
  | .pmul _ _ z => z | .conj x => x | .fill _ x => x | .comb _ _ _ y => y | .matvec _ y _ => y | .matvech _ y _ => y
  | .psolve _ y _ => y | .psolveh _ y _ => y | .lsolve _ y _ => y | .rdiag x => x

/-- the value a call assigns -/
def VOp.val (K : Kit R S n) : VOp R → MHeap R n → Fin n → R
  | copy x _, h => h x
  | axpy a x y, h => fun i => h y i + a * h x i
  | xpay x a y, h => fun i => h x i + a * h y i
  | axpyz a x y _, h => fun i => a * h x i + h y i
  | scale a x, h => fun i => a * h x i
  | setAll a _, _ => fun _ => a
  | pmul x y _, h => fun i => h x i * h y i
  | conj x, h => fun i => star (h x i)
  | fill f _, _ => fun i => f i
  | comb a x l _, h => fun i => l.foldl (fun t p => t + h p.2 i * p.1) (a * h x i)
  | matvec x _ _, h => K.mv (h x)
  | matvech x _ _, h => K.mvh (h x)
  | psolve x _ _, h => K.ps (h x)
  | psolveh x _ _, h => K.psh (h x)
  | lsolve x _ _, h => K.ls (h x)
  | rdiag _, _ => K.rdg

theorem Contract.pre {K : Kit R S n} {o : Opts R S} {junk : S} {brk : MHeap R n → Prop} {s s1 s' : MSt R S n}
    {out : Out S} (hb : s1.h hB = s.h hB) (hx : s1.h hX = s.h hX) (hh : s1.hist = s.hist)
    (h : Contract K o junk brk s1 s' out) : Contract K o junk brk s s' out := by
  have e0 : r0Of K o s1.h = r0Of K o s.h := by simp [r0Of, hb, hx]
  have e1 : tolOf K o s1.h = tolOf K o s.h := by simp [tolOf, hb]
  have er : refNorm K o s1.h = refNorm K o s.h := by simp only [refNorm, e0, hb]
  have e2 : initialResOf K o s1.h = initialResOf K o s.h := by unfold initialResOf bnrmOf; rw [er, e0]
  obtain ⟨h1, h2, h3, h4, h5⟩ := h
  rw [e1] at h4 h5
  rw [e2, hh, hx] at h5
  rw [hh] at h2 h3
  exact ⟨h1.trans hb, h2, h3, h4, h5⟩

/-- the shape of all the solvers: initial residual, preparation, loop -/
theorem Ok_solver {K : Kit R S n} {o : Opts R S} {junk : S} {brk : MHeap R n → Prop} {s : MSt R S n} {r : ℕ}
    {h : hX ≠ r} (hb : hB ≠ r) {rest : Tols S → Prog R S (Out S)}
    (hrest : ¬ initialResOf K o s.h ≤ RealOps.fabs o.tol → Ok ((rest ⟨bnrmOf K o s.h, tolOf K o s.h⟩).run K
      ⟨Function.update s.h r (r0Of K o s.h), s.hist⟩) fun x => Contract K o junk brk s x.2 x.1) :
    Ok ((do match ← initialResidual o r h with
            | .inl out => pure out
            | .inr t => rest t).run K s) fun x => Contract K o junk brk s x.2 x.1 := by
  simp only [Prog.run_bind, run_initialResidual K o r h hb, Option.bind_some]
  split
  · rename_i out heq
    split at heq
    · cases heq
      rename_i hle
      simp only [Prog.run_pure, Ok_some]
      exact ⟨by simp [Function.update_of_ne hb], rfl, fun _ _ => rfl, fun _ j h1 h2 => by simp only at h2; omega,
        .inl ⟨rfl, hle, by simp [Function.update_of_ne h], rfl⟩⟩
    · cases heq
  · rename_i t heq
    split at heq
    · cases heq
    · cases heq
      exact hrest ‹_›

omit [Zero R] [One R] [Neg R] [Div R] [Sub R] [DecidableEq R] [RealOps S]

theorem Ok_vop {K : Kit R S n} {α : Type} {op : VOp R} {f : Unit → Prog R S α} {s : MSt R S n}
    {Q : α × MSt R S n → Prop}
    (h : ∀ w, w = op.val K s.h → Ok ((f ()).run K ⟨Function.update s.h op.dst w, s.hist⟩) Q) :
    Ok ((Prog.vop op (.ret ()) >>= f).run K s) Q := by
  have := h _ rfl
  cases op <;> exact this

theorem Ok_red {K : Kit R S n} {α : Type} {op : VRed} {f : R → Prog R S α} {s : MSt R S n}
    {Q : α × MSt R S n → Prop} (h : ∀ r, r = op.run K s.h → Ok ((f r).run K s) Q) :
    Ok ((Prog.red op .ret >>= f).run K s) Q := h _ rfl

theorem Ok_norm {K : Kit R S n} {α : Type} {op : VNorm} {f : S → Prog R S α} {s : MSt R S n}
    {Q : α × MSt R S n → Prop} (h : ∀ r, r = op.run K s.h → Ok ((f r).run K s) Q) :
    Ok ((Prog.norm op .ret >>= f).run K s) Q := h _ rfl

theorem Ok_ret {K : Kit R S n} {α : Type} {a : α} {s : MSt R S n} {Q : α × MSt R S n → Prop} (h : Q (a, s)) :
    Ok ((pure a : Prog R S α).run K s) Q := ⟨_, rfl, h⟩

theorem Ok_hist {K : Kit R S n} {α : Type} {i : ℕ} {v : S} {f : Unit → Prog R S α} {s : MSt R S n}
    {Q : α × MSt R S n → Prop} (hi : i < s.hist.size) (h : Ok ((f ()).run K ⟨s.h, s.hist.set i v⟩) Q) :
    Ok ((setHist i v >>= f).run K s) Q := by
  rw [Prog.run_bind, run_setHist (hi := hi)]; exact h

theorem Ok_pif {K : Kit R S n} {α : Type} {c : Prop} [Decidable c] {p q : Prog R S α} {s : MSt R S n}
    {Q : α × MSt R S n → Prop} (h1 : c → Ok (p.run K s) Q) (h2 : ¬ c → Ok (q.run K s) Q) :
    Ok ((if c then p else q).run K s) Q := by
  split
  · exact h1 ‹_›
  · exact h2 ‹_›

theorem Ok_checkResid [RealOps S] {K : Kit R S n} {α : Type} {o : Opts R S} {t : Tols S} {i r : ℕ}
    {f : S → Prog R S α} {s : MSt R S n} {Q : α × MSt R S n → Prop} (hi : i < s.hist.size)
    (h : ∀ v a, v = resOf K o.conv t.bnrm (s.h r) → Recorded o i v s.hist a → Ok ((f v).run K ⟨s.h, a⟩) Q) :
    Ok ((checkResid o t i r >>= f).run K s) Q := by
  rw [Prog.run_bind, run_checkResid _ _ _ _ _ _ hi]; exact h _ _ rfl rfl

theorem Ok_getResidual [RealOps S] {K : Kit R S n} {α : Type} {c : Conv} {t : Tols S} {r : ℕ}
    {f : S → Prog R S α} {s : MSt R S n} {Q : α × MSt R S n → Prop}
    (h : ∀ v, v = resOf K c t.bnrm (s.h r) → Ok ((f v).run K s) Q) :
    Ok ((getResidual c t r >>= f).run K s) Q := by
  rw [Prog.run_bind, run_getResidual]; exact h _ rfl

theorem Ok_qsiEta [Zero R] [Div R] [Sub R] {K : Kit R S n} {α : Type} {iter y am t : ℕ} {f : R × R → Prog R S α}
    {s : MSt R S n} {Q : α × MSt R S n → Prop} (h : ∀ q e, (iter = 1 → e = 0) → Ok ((f (q, e)).run K s) Q) :
    Ok ((qsiEta iter y am t >>= f).run K s) Q := by
  unfold qsiEta
  simp only [Prog.run_bind, run_vDot, Option.bind_some]
  split
  · exact h _ _ fun _ => rfl
  · exact h _ _ fun h => absurd h ‹_›

theorem Ok_setShadow {K : Kit R S n} {α : Type} {o : Opts R S} {r0 rs0 : ℕ} {f : Unit → Prog R S α} {s : MSt R S n}
    {Q : α × MSt R S n → Prop} (h : ∀ w, Ok ((f ()).run K ⟨Function.update s.h rs0 w, s.hist⟩) Q) :
    Ok ((setShadow o r0 rs0 >>= f).run K s) Q := by
  unfold setShadow
  cases o.shadow with
  | some g => simpa using h fun i => g i
  | none => simpa [Function.update_idem] using h fun i => star (s.h r0 i)

/-- look up vectors in a heap given as a sequence of assignments -/
macro "vlook" : tactic => `(tactic|
  simp (disch := decide) only [VOp.val, VOp.dst, VRed.run, VNorm.run, Function.update_self, Function.update_of_ne, ne_eq])
macro "vlook" "at" h:ident : tactic => `(tactic|
  simp (disch := decide) only [VOp.val, VOp.dst, VRed.run, VNorm.run, Function.update_self, Function.update_of_ne, ne_eq] at $h:ident)

end Lis
