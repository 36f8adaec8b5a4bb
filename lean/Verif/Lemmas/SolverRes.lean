import Verif.Lemmas.Solver
import Mathlib.Tactic.Ring
import Mathlib.Tactic.LinearCombination

namespace Lis
variable {R S : Type} {n : ℕ} [CommRing R] [Div R] [Star R] [DecidableEq R] [RealOps S]

/-- what one iteration does to the residual -/
def IterRes (K : Kit R S n) (o : Opts R S) (bnrm : S) {σ : Type} (I : ℕ → σ → MHeap R n → Prop) (i : ℕ) (prev : S)
    (s : MSt R S n) : ((σ × S) ⊕ Out S) × MSt R S n → Prop
  | (.inl st, s') => I (i + 1) st.1 s'.h ∧ st.2 = resOf K o.conv bnrm (trueRes K s'.h)
  | (.inr out, s') => out.resid = resOf K o.conv bnrm (trueRes K s'.h) ∨
      (out.ret = .breakdown ∧ out.iter = i ∧ out.resid = prev ∧ s'.h hX = s.h hX ∧ s'.h hB = s.h hB)

theorem Ok_mainLoopRes {K : Kit R S n} {σ : Type} {body : ℕ → σ × S → Prog R S ((σ × S) ⊕ Out S)} {o : Opts R S}
    {junk : S} {s s1 : MSt R S n} {st : σ} (I : ℕ → σ → MHeap R n → Prop)
    (hsz : o.maxiter < s1.hist.size) (hI : I 1 st s1.h)
    (hbody : ∀ i st s2, 1 ≤ i → i < s2.hist.size → I i st.1 s2.h →
      Ok ((body i st).run K s2) fun r => IterRes K o (bnrmOf K o s.h) I i st.2 s2 r ∧ r.2.hist.size = s2.hist.size) :
    Ok ((mainLoop o.maxiter body (st, junk)).run K s1) fun r => ReportsTrue K o junk s r.2 r.1 := by
  simp only [mainLoop, Prog.run_bind, Ok_obind]
  refine Ok_forIter (lo := 1) (fun i st s' => 1 ≤ i ∧ s'.hist.size = s1.hist.size ∧ I i st.1 s'.h ∧
      (if i = 1 then st.2 = junk else st.2 = resOf K o.conv (bnrmOf K o s.h) (trueRes K s'.h)))
    o.maxiter 1 (st, junk) s1 ⟨le_rfl, rfl, hI, by simp⟩ ?_ ?_
  · rintro j st s' h1 h2 ⟨-, hs, hI, hp⟩
    obtain ⟨⟨r, s2⟩, hr, h, hs2⟩ := hbody j st s' h1 (by omega) hI
    refine ⟨_, hr, ?_⟩
    rcases r with st' | out
    · simp only [IterRes] at h ⊢
      exact ⟨by omega, by simp only at hs2; omega, h.1, by rw [if_neg (by omega)]; exact h.2⟩
    · simp only [IterRes] at h
      simp only [Prog.run_pure, Ok_some]
      rcases h with h | ⟨h3, h4, h5, h6, h7⟩
      · exact .inr (.inl h)
      · split at hp
        · exact .inr (.inr ⟨by simp [h3], by rw [h5, hp], .inr (by omega)⟩)
        · refine .inr (.inl ?_)
          rw [h5, hp]
          unfold trueRes
          rw [h6, h7]
  · rintro st s' ⟨-, -, -, hp⟩
    simp only [Prog.run_pure, Ok_some]
    split at hp
    · exact .inr (.inr ⟨by simp, hp, .inl (by omega)⟩)
    · exact .inr (.inl hp)

theorem r0Of_eq {K : Kit R S n} (hlin : K.Linear) {o : Opts R S} {h : MHeap R n} (hz : o.initZero → h hX = 0) :
    r0Of K o h = trueRes K h := by
  unfold r0Of trueRes
  split
  · rename_i h0
    have : K.mv (0 : Fin n → R) = fun _ => 0 := by
      have := hlin (-1) (0 : Fin n → R) 0
      simp only [Pi.zero_apply, mul_zero, add_zero] at this
      funext i
      have := congrFun this i
      have e : (fun _ : Fin n => (0 : R)) = 0 := rfl
      rw [e] at this
      rw [this]; ring
    rw [hz h0, this]
    simp
  · funext i; ring

theorem Ok_solverRes {K : Kit R S n} (hlin : K.Linear) {o : Opts R S} {junk : S} {s : MSt R S n} {r : ℕ}
    {h : hX ≠ r} (hb : hB ≠ r) (hz : o.initZero → s.h hX = 0) {rest : Tols S → Prog R S (Out S)}
    (hrest : ∀ w, (∀ j, w j = s.h hB j - K.mv (s.h hX) j) → Ok ((rest ⟨bnrmOf K o s.h, tolOf K o s.h⟩).run K
      ⟨Function.update s.h r w, s.hist⟩) fun x => ReportsTrue K o junk s x.2 x.1) :
    Ok ((do match ← initialResidual o r h with
            | .inl out => pure out
            | .inr t => rest t).run K s) fun x => ReportsTrue K o junk s x.2 x.1 := by
  simp only [Prog.run_bind, run_initialResidual K o r h hb, Option.bind_some]
  have e := r0Of_eq hlin hz
  split
  · rename_i out heq
    split at heq
    · cases heq
      rename_i hle
      simp only [Prog.run_pure, Ok_some]
      refine .inl ⟨rfl, rfl, hle, ?_⟩
      rw [e]
      unfold trueRes
      simp [Function.update_of_ne hb, Function.update_of_ne h]
    · cases heq
  · rename_i t heq
    split at heq
    · cases heq
    · cases heq
      exact hrest _ fun j => congrFun e j

theorem ReportsTrue.pre {K : Kit R S n} {o : Opts R S} {junk : S} {s s1 s' : MSt R S n}
    {out : Out S} (hb : s1.h hB = s.h hB) (hx : s1.h hX = s.h hX)
    (h : ReportsTrue K o junk s1 s' out) : ReportsTrue K o junk s s' out := by
  have e0 : r0Of K o s1.h = r0Of K o s.h := by simp [r0Of, hb, hx]
  have er : refNorm K o s1.h = refNorm K o s.h := by simp only [refNorm, e0, hb]
  have e1 : bnrmOf K o s1.h = bnrmOf K o s.h := by unfold bnrmOf; rw [er]
  have e2 : initialResOf K o s1.h = initialResOf K o s.h := by unfold initialResOf; rw [e1, e0]
  unfold ReportsTrue at *
  rw [e0, e1, e2] at h
  exact h

/-! ### stepping, keeping the linear relations -/

/-- what is kept about the value `w` assigned by a call: its entries, and those of `A w` -/
def VOp.Lin (K : Kit R S n) (w : Fin n → R) : VOp R → MHeap R n → Prop
  | copy x _, h => (∀ j, w j = h x j) ∧ ∀ j, K.mv w j = K.mv (h x) j
  | axpy a x y, h => (∀ j, w j = h y j + a * h x j) ∧ ∀ j, K.mv w j = K.mv (h y) j + a * K.mv (h x) j
  | xpay x a y, h => (∀ j, w j = h x j + a * h y j) ∧ ∀ j, K.mv w j = K.mv (h x) j + a * K.mv (h y) j
  | axpyz a x y _, h => (∀ j, w j = a * h x j + h y j) ∧ ∀ j, K.mv w j = a * K.mv (h x) j + K.mv (h y) j
  | scale a x, h => (∀ j, w j = a * h x j) ∧ ∀ j, K.mv w j = a * K.mv (h x) j
  | setAll a _, _ => (∀ j, w j = a) ∧ (a = 0 → ∀ j, K.mv w j = 0)
  | matvec x _ _, h => ∀ j, w j = K.mv (h x) j
  | comb a x l _, h => (∀ j, w j = l.foldl (fun t p => t + h p.2 j * p.1) (a * h x j)) ∧
      ∀ j, K.mv w j = l.foldl (fun t p => t + K.mv (h p.2) j * p.1) (a * K.mv (h x) j)
  | _, _ => True

theorem Kit.Linear.zero {K : Kit R S n} (hlin : K.Linear) (j : Fin n) : K.mv (fun _ => 0) j = 0 := by
  have := congrFun (hlin (-1) (fun _ => 0) fun _ => 0) j
  simp only [mul_zero, add_zero] at this
  rw [this]; ring

theorem Kit.Linear.smul {K : Kit R S n} (hlin : K.Linear) (a : R) (x : Fin n → R) (j : Fin n) :
    K.mv (fun i => a * x i) j = a * K.mv x j := by
  have := congrFun (hlin a (fun _ => 0) x) j
  simp only [zero_add, hlin.zero] at this
  exact this

theorem Kit.Linear.comb {K : Kit R S n} (hlin : K.Linear) (h : MHeap R n) (l : List (R × ℕ)) (j : Fin n) :
    ∀ f : Fin n → R, K.mv (fun i => l.foldl (fun t p => t + h p.2 i * p.1) (f i)) j =
      l.foldl (fun t p => t + K.mv (h p.2) j * p.1) (K.mv f j) := by
  induction l with
  | nil => intro f; rfl
  | cons p l ih =>
    intro f
    have := ih fun i => f i + h p.2 i * p.1
    simp only [List.foldl_cons]
    rw [this]
    have h2 := congrFun (hlin p.1 f (h p.2)) j
    simp only [mul_comm p.1] at h2
    rw [h2]

theorem VOp.lin {K : Kit R S n} (hlin : K.Linear) (op : VOp R) (h : MHeap R n) : op.Lin K (op.val K h) h := by
  cases op <;> simp only [VOp.Lin, VOp.val, implies_true, and_self, true_and]
  · intro j; rw [hlin]
  · intro j; rw [hlin]
  · rename_i a x y z
    intro j
    have := congrFun (hlin a (h y) (h x)) j
    simp only [add_comm] at this ⊢
    exact this
  · rename_i a x
    intro j
    have := congrFun (hlin a (fun _ => 0) (h x)) j
    simp only [zero_add, hlin.zero] at this
    exact this
  · rintro rfl j; exact hlin.zero j
  · rename_i a x l y
    intro j
    rw [hlin.comb h l j fun i => a * h x i, hlin.smul]

theorem Ok_vopL {K : Kit R S n} (hlin : K.Linear) {α : Type} {op : VOp R} {f : Unit → Prog R S α} {s : MSt R S n}
    {Q : α × MSt R S n → Prop}
    (h : ∀ w, op.Lin K w s.h → Ok ((f ()).run K ⟨Function.update s.h op.dst w, s.hist⟩) Q) :
    Ok ((Prog.vop op (.ret ()) >>= f).run K s) Q :=
  Ok_vop fun w hw => h w (hw ▸ op.lin hlin s.h)

omit [CommRing R] [Div R] [DecidableEq R] [RealOps S] in
theorem Ok_red' [Add R] [Mul R] {K : Kit R S n} {α : Type} {op : VRed} {f : R → Prog R S α} {s : MSt R S n}
    {Q : α × MSt R S n → Prop} (h : ∀ r, Ok ((f r).run K s) Q) :
    Ok ((Prog.red op .ret >>= f).run K s) Q := h _

omit [CommRing R] [Div R] [Star R] [DecidableEq R] [RealOps S] in
theorem Recorded.size {o : Opts R S} {i : ℕ} {v : S} {a a' : Arr S} (h : Recorded o i v a a') : a'.size = a.size := by
  unfold Recorded at h; rw [h]; split <;> rfl

/-- step to the end of a program, keeping the linear relations between the vectors -/
macro "vautoL" hlin:ident hi:ident : tactic => `(tactic|
  (simp only [vCopy, vAxpy, vXpay, vAxpyz, vScale, vSetAll, vPmul, vConj, vFill, mMatvec, mMatvech, mPsolve, mPsolveh,
     vDot, vNhdot, vNrm2, vNrm1]
   repeat' with_reducible first
    | (refine Ok_vopL $hlin (fun _ _ => ?_))
    | (refine Ok_red' (fun _ => ?_))
    | (refine Ok_checkResid $hi (fun _ _ _ _ => ?_))
    | (refine Ok_getResidual (fun _ _ => ?_))
    | (refine Ok_setShadow (fun _ => ?_))
    | (refine Ok_qsiEta (fun _ _ _ => ?_))
    | (refine Ok_hist $hi ?_)
    | (refine Ok_pif (fun _ => ?_) (fun _ => ?_))
    | (refine Ok_ret ?_)
   all_goals simp (disch := decide) only [VOp.Lin, VOp.dst, Function.update_self, Function.update_of_ne, ne_eq,
      true_implies] at *))

/-- solve `r = b - A x` type goals from the linear relations -/
macro "vlin" : tactic => `(tactic|
  (beta_reduce; and_intros <;> intros <;> simp (disch := decide) only [trueRes, Function.update_self, Function.update_of_ne, ne_eq, *] <;> ring))

omit [CommRing R] [Div R] [Star R] [DecidableEq R] in
theorem resOf_of {K : Kit R S n} {c : Conv} {bnrm v : S} {w z : Fin n → R} (hv : v = resOf K c bnrm w)
    (h : ∀ j, w j = z j) : v = resOf K c bnrm z := by
  rw [hv, funext h]

end Lis
