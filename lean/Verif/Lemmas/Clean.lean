import Verif.Spec.Stale
import Verif.Model.Solver2
import Verif.Props.Machine
import Mathlib.Data.Set.Insert

/-!
# A calculus for "reads only vectors that have been written"

`Prog.Clean post p V`: started when the vectors in `V` are known, the program `p` reads no unknown vector, and at its end
`post` holds of its result and the set of known vectors.
-/

namespace Lis
variable {R S : Type} {n : ℕ} {α β : Type}

/-- the vectors a call reads -/
def VOp.reads : VOp R → List ℕ
  | copy x _ => [x]
  | axpy _ x y => [x, y]
  | xpay x _ y => [x, y]
  | axpyz _ x y _ => [x, y]
  | scale _ x => [x]
  | setAll _ _ => []
  | pmul x y _ => [x, y]
  | conj x => [x]
  | fill _ _ => []
  | matvec x _ _ => [x]
  | matvech x _ _ => [x]
  | psolve x _ _ => [x]
  | psolveh x _ _ => [x]
  | lsolve x _ _ => [x]
  | rdiag _ => []
  | comb _ x l _ => x :: l.map Prod.snd

/-- the vector a call writes -/
def VOp.target : VOp R → ℕ
  | copy _ y => y
  | axpy _ _ y => y
  | xpay _ _ y => y
  | axpyz _ _ _ z => z
  | scale _ x => x
  | setAll _ x => x
  | pmul _ _ z => z
  | conj x => x
  | fill _ x => x
  | matvec _ y _ => y
  | matvech _ y _ => y
  | psolve _ y _ => y
  | psolveh _ y _ => y
  | lsolve _ y _ => y
  | rdiag x => x
  | comb _ _ _ y => y

def VRed.reads : VRed → List ℕ
  | dot x y => [x, y]
  | nhdot x y => [x, y]

def VNorm.reads : VNorm → List ℕ
  | nrm2 x => [x]
  | nrm1 x => [x]

def Prog.Clean (post : α → Set ℕ → Prop) : Prog R S α → Set ℕ → Prop
  | .ret a, V => post a V
  | .vop o k, V => (∀ v ∈ o.reads, v ∈ V) ∧ k.Clean post (insert o.target V)
  | .red o k, V => (∀ v ∈ o.reads, v ∈ V) ∧ ∀ r, (k r).Clean post V
  | .norm o k, V => (∀ v ∈ o.reads, v ∈ V) ∧ ∀ r, (k r).Clean post V
  | .hist _ _ k, V => k.Clean post V
  | .undef, _ => True

theorem Prog.Clean.mono {post post' : α → Set ℕ → Prop} {p : Prog R S α} :
    ∀ {V V' : Set ℕ}, p.Clean post V → V ⊆ V' → (∀ a W W', post a W → W ⊆ W' → post' a W') → p.Clean post' V' := by
  induction p with
  | ret a => intro V V' h hV hp; exact hp a V V' h hV
  | vop o k ih =>
    intro V V' h hV hp
    exact ⟨fun v hv => hV (h.1 v hv), ih h.2 (Set.insert_subset_insert hV) hp⟩
  | red o k ih =>
    intro V V' h hV hp
    exact ⟨fun v hv => hV (h.1 v hv), fun r => ih r (h.2 r) hV hp⟩
  | norm o k ih =>
    intro V V' h hV hp
    exact ⟨fun v hv => hV (h.1 v hv), fun r => ih r (h.2 r) hV hp⟩
  | hist i v k ih => intro V V' h hV hp; exact ih h hV hp
  | undef => intro V V' _ _ _; trivial

theorem Prog.Clean.mono' {post post' : α → Set ℕ → Prop} {p : Prog R S α} :
    ∀ {V : Set ℕ}, p.Clean post V → (∀ a W, post a W → post' a W) → p.Clean post' V := by
  induction p with
  | ret a => intro V h hp; exact hp a V h
  | vop o k ih => intro V h hp; exact ⟨h.1, ih h.2 hp⟩
  | red o k ih => intro V h hp; exact ⟨h.1, fun r => ih r (h.2 r) hp⟩
  | norm o k ih => intro V h hp; exact ⟨h.1, fun r => ih r (h.2 r) hp⟩
  | hist i v k ih => intro V h hp; exact ih h hp
  | undef => intro V _ _; trivial

theorem Clean_bind {post : β → Set ℕ → Prop} {p : Prog R S α} {f : α → Prog R S β} {V : Set ℕ} :
    (p >>= f).Clean post V ↔ p.Clean (fun a V => (f a).Clean post V) V := by
  change (Prog.bind p f).Clean post V ↔ _
  induction p generalizing V with
  | ret a => rfl
  | vop o k ih => simp only [Prog.bind, Prog.Clean, ih]
  | red o k ih => simp only [Prog.bind, Prog.Clean, ih]
  | norm o k ih => simp only [Prog.bind, Prog.Clean, ih]
  | hist i v k ih => simp only [Prog.bind, Prog.Clean, ih]
  | undef => rfl

theorem Clean_pure {post : α → Set ℕ → Prop} {a : α} {V : Set ℕ} : (pure a : Prog R S α).Clean post V ↔ post a V := Iff.rfl

theorem Clean_ite {post : α → Set ℕ → Prop} {c : Prop} [Decidable c] {p q : Prog R S α} {V : Set ℕ} :
    (if c then p else q).Clean post V ↔ (c → p.Clean post V) ∧ (¬ c → q.Clean post V) := by
  by_cases h : c <;> simp [h]

theorem Clean_ofOption {post : α → Set ℕ → Prop} {x : Option α} {V : Set ℕ} :
    (Prog.ofOption x : Prog R S α).Clean post V ↔ ∀ a, x = some a → post a V := by
  cases x with
  | none => simp [Prog.ofOption, Prog.Clean]
  | some a => simp [Prog.ofOption, Prog.Clean]

section calls
variable {post : Unit → Set ℕ → Prop} {V : Set ℕ}

local macro "cl" : tactic => `(tactic| simp [Prog.Clean, VOp.reads, VOp.target, vCopy, vAxpy, vXpay, vAxpyz, vScale, vSetAll,
  vPmul, vConj, vFill, mMatvec, mMatvech, mPsolve, mPsolveh, mLsolve, mRdiag, vComb, setHist, and_assoc])

theorem Clean_vCopy (x y : ℕ) : (vCopy x y : Prog R S Unit).Clean post V ↔ x ∈ V ∧ post () (insert y V) := by cl
theorem Clean_vAxpy (a : R) (x y : ℕ) : (vAxpy a x y : Prog R S Unit).Clean post V ↔ x ∈ V ∧ y ∈ V ∧ post () (insert y V) := by cl
theorem Clean_vXpay (a : R) (x y : ℕ) : (vXpay x a y : Prog R S Unit).Clean post V ↔ x ∈ V ∧ y ∈ V ∧ post () (insert y V) := by cl
theorem Clean_vAxpyz (a : R) (x y z : ℕ) :
    (vAxpyz a x y z : Prog R S Unit).Clean post V ↔ x ∈ V ∧ y ∈ V ∧ post () (insert z V) := by cl
theorem Clean_vScale (a : R) (x : ℕ) : (vScale a x : Prog R S Unit).Clean post V ↔ x ∈ V ∧ post () (insert x V) := by cl
theorem Clean_vSetAll (a : R) (x : ℕ) : (vSetAll a x : Prog R S Unit).Clean post V ↔ post () (insert x V) := by cl
theorem Clean_vPmul (x y z : ℕ) : (vPmul x y z : Prog R S Unit).Clean post V ↔ x ∈ V ∧ y ∈ V ∧ post () (insert z V) := by cl
theorem Clean_vConj (x : ℕ) : (vConj x : Prog R S Unit).Clean post V ↔ x ∈ V ∧ post () (insert x V) := by cl
theorem Clean_vFill (f : ℕ → R) (x : ℕ) : (vFill f x : Prog R S Unit).Clean post V ↔ post () (insert x V) := by cl
theorem Clean_mMatvec (x y : ℕ) (h : x ≠ y) : (mMatvec x y h : Prog R S Unit).Clean post V ↔ x ∈ V ∧ post () (insert y V) := by cl
theorem Clean_mMatvech (x y : ℕ) (h : x ≠ y) : (mMatvech x y h : Prog R S Unit).Clean post V ↔ x ∈ V ∧ post () (insert y V) := by cl
theorem Clean_mPsolve (x y : ℕ) (h : x ≠ y) : (mPsolve x y h : Prog R S Unit).Clean post V ↔ x ∈ V ∧ post () (insert y V) := by cl
theorem Clean_mPsolveh (x y : ℕ) (h : x ≠ y) : (mPsolveh x y h : Prog R S Unit).Clean post V ↔ x ∈ V ∧ post () (insert y V) := by cl
theorem Clean_mLsolve (x y : ℕ) (h : x ≠ y) : (mLsolve x y h : Prog R S Unit).Clean post V ↔ x ∈ V ∧ post () (insert y V) := by cl
theorem Clean_mRdiag (x : ℕ) : (mRdiag x : Prog R S Unit).Clean post V ↔ post () (insert x V) := by cl
theorem Clean_setHist (i : ℕ) (v : S) : (setHist i v : Prog R S Unit).Clean post V ↔ post () V := by cl
theorem Clean_vComb (a : R) (x : ℕ) (l : List (R × ℕ)) (y : ℕ) : (vComb a x l y : Prog R S Unit).Clean post V ↔
    x ∈ V ∧ (∀ p ∈ l, p.2 ∈ V) ∧ post () (insert y V) := by
  simp only [vComb, Prog.Clean, VOp.reads, VOp.target, List.mem_cons, List.mem_map]
  constructor
  · rintro ⟨h1, h2⟩
    exact ⟨h1 x (Or.inl rfl), fun p hp => h1 _ (Or.inr ⟨p, hp, rfl⟩), h2⟩
  · rintro ⟨h1, h2, h3⟩
    refine ⟨?_, h3⟩
    rintro v (rfl | ⟨p, hp, rfl⟩)
    · exact h1
    · exact h2 p hp
theorem Clean_vDot {post : R → Set ℕ → Prop} (x y : ℕ) : (vDot x y : Prog R S R).Clean post V ↔ x ∈ V ∧ y ∈ V ∧ ∀ r, post r V := by
  simp [Prog.Clean, VRed.reads, vDot, and_assoc]
theorem Clean_vNhdot {post : R → Set ℕ → Prop} (x y : ℕ) :
    (vNhdot x y : Prog R S R).Clean post V ↔ x ∈ V ∧ y ∈ V ∧ ∀ r, post r V := by
  simp [Prog.Clean, VRed.reads, vNhdot, and_assoc]
theorem Clean_vNrm2 {post : S → Set ℕ → Prop} (x : ℕ) : (vNrm2 x : Prog R S S).Clean post V ↔ x ∈ V ∧ ∀ r, post r V := by
  simp [Prog.Clean, VNorm.reads, vNrm2]
theorem Clean_vNrm1 {post : S → Set ℕ → Prop} (x : ℕ) : (vNrm1 x : Prog R S S).Clean post V ↔ x ∈ V ∧ ∀ r, post r V := by
  simp [Prog.Clean, VNorm.reads, vNrm1]
end calls

/-! ### soundness -/

def Agree (V : Set ℕ) (h h' : MHeap R n) : Prop := ∀ v ∈ V, h v = h' v

theorem VOp.run_agree [Add R] [Mul R] [Star R] (K : Kit R S n) (o : VOp R) {V : Set ℕ} {h h' : MHeap R n} (hV : Agree V h h')
    (hr : ∀ v ∈ o.reads, v ∈ V) : Agree (insert o.target V) (o.run K h) (o.run K h') := by
  have hr' : ∀ v ∈ o.reads, h v = h' v := fun v hv => hV v (hr v hv)
  intro v hv
  by_cases e : v = o.target
  · subst e
    cases o <;> simp only [VOp.reads, List.mem_cons, List.mem_singleton, forall_eq_or_imp, forall_eq, List.not_mem_nil,
      IsEmpty.forall_iff, implies_true, and_true, List.mem_map, VOp.target, VOp.run, Function.update_self] at hr' ⊢
    case comb a x l y =>
      funext i
      rw [hr'.1]
      generalize a * h' x i = t0
      have : ∀ (l' : List (R × ℕ)), (∀ p ∈ l', h p.2 = h' p.2) → ∀ t : R,
          l'.foldl (fun t p => t + h p.2 i * p.1) t = l'.foldl (fun t p => t + h' p.2 i * p.1) t := by
        intro l'
        induction l' with
        | nil => intro _ t; rfl
        | cons q l' ih =>
          intro hq t
          simp only [List.foldl_cons]
          rw [hq q (by simp), ih fun p hp => hq p (by simp [hp])]
      exact this l (fun p hp => hr'.2 _ ⟨p, hp, rfl⟩) t0
    all_goals first | rfl | (simp only [hr'])
  · have hv' : v ∈ V := by
      rcases hv with hv | hv
      · exact absurd hv e
      · exact hv
    have : ∀ g : MHeap R n, o.run K g v = g v := by
      intro g
      cases o <;> simp only [VOp.target] at e <;> simp only [VOp.run, Function.update_of_ne e]
    rw [this, this]
    exact hV v hv'

theorem SameHist.wr {a0 b0 a b : Arr S} (h : SameHist a0 b0 a b) (i : ℕ) (v : S) :
    (a.wr i v = none ∧ b.wr i v = none) ∨ ∃ a' b', a.wr i v = some a' ∧ b.wr i v = some b' ∧ SameHist a0 b0 a' b' := by
  by_cases hi : i < a.size
  · right
    refine ⟨a.set i v, b.set i v, by simp [Arr.wr, hi], by simp [Arr.wr, ← h.1, hi], by simpa using h.1, fun j => ?_⟩
    by_cases hj : j = i
    · subst hj; left; simp [Arr.set_get]
    · simp only [Arr.set_get, if_neg hj]; exact h.2 j
  · left
    exact ⟨by simp [Arr.wr, hi], by simp [Arr.wr, ← h.1, hi]⟩

theorem Prog.Clean.sound [Add R] [Mul R] [Star R] (K : Kit R S n) {post : α → Set ℕ → Prop} {p : Prog R S α} {a0 b0 : Arr S} :
    ∀ {V : Set ℕ}, p.Clean post V → ∀ {s s' : MSt R S n}, Agree V s.h s'.h → SameHist a0 b0 s.hist s'.hist →
    (p.run K s = none ∧ p.run K s' = none) ∨ ∃ a t t' W, p.run K s = some (a, t) ∧ p.run K s' = some (a, t') ∧ post a W ∧
      Agree W t.h t'.h ∧ SameHist a0 b0 t.hist t'.hist := by
  induction p with
  | ret a => intro V h s s' hV hh; exact Or.inr ⟨a, s, s', V, rfl, rfl, h, hV, hh⟩
  | vop o k ih => intro V h s s' hV hh; exact ih h.2 (VOp.run_agree K o hV h.1) hh
  | red o k ih =>
    intro V h s s' hV hh
    have e : o.run K s.h = o.run K s'.h := by
      cases o <;> simp only [VRed.run] <;> rw [hV _ (h.1 _ (by simp [VRed.reads])), hV _ (h.1 _ (by simp [VRed.reads]))]
    unfold Prog.run
    rw [e]
    exact ih _ (h.2 _) hV hh
  | norm o k ih =>
    intro V h s s' hV hh
    have e : o.run K s.h = o.run K s'.h := by
      cases o <;> simp only [VNorm.run] <;> rw [hV _ (h.1 _ (by simp [VNorm.reads]))]
    unfold Prog.run
    rw [e]
    exact ih _ (h.2 _) hV hh
  | hist i v k ih =>
    intro V h s s' hV hh
    unfold Prog.run
    rcases hh.wr i v with ⟨e1, e2⟩ | ⟨a', b', e1, e2, hs⟩
    · left; rw [e1, e2]; exact ⟨rfl, rfl⟩
    · rw [e1, e2]
      exact ih (s := ⟨s.h, a'⟩) (s' := ⟨s'.h, b'⟩) h hV hs
  | undef => intro V h s s' hV hh; exact Or.inl ⟨rfl, rfl⟩

/-- a program that, from `b` and `x`, reads only what it has written does not depend on the work vectors -/
theorem Prog.Clean.ignores [Add R] [Mul R] [Star R] (K : Kit R S n) {p : Prog R S α}
    (h : p.Clean (fun _ V => hX ∈ V ∧ hB ∈ V) {hB, hX}) : IgnoresWork K p := by
  intro s s' e1 e2 e3
  have hV : Agree ({hB, hX} : Set ℕ) s.h s'.h := by
    rintro v (rfl | rfl)
    · exact e1
    · exact e2
  rcases h.sound K hV (a0 := s.hist) (b0 := s'.hist) ⟨e3, fun i => Or.inr ⟨rfl, rfl⟩⟩ with h | ⟨a, t, t', W, r1, r2, hW, hA, hs⟩
  · exact Or.inl h
  · exact Or.inr ⟨a, t, t', r1, r2, hA _ hW.1, hA _ hW.2, hs⟩

/-! ### rules for loops -/

theorem Clean_forIter {σ : Type} {body : ℕ → σ → Prog R S (σ ⊕ Out S)} {post : σ ⊕ Out S → Set ℕ → Prop} (Inv : ℕ → Set ℕ)
    (hpost : ∀ r W W', post r W → W ⊆ W' → post r W') :
    ∀ (k i : ℕ) (s : σ) (V : Set ℕ), Inv i ⊆ V →
    (∀ j s, i ≤ j → j < i + k → (body j s).Clean (fun r W => match r with
      | .inl _ => Inv (j + 1) ⊆ W
      | .inr o => post (.inr o) W) (Inv j)) →
    (∀ s, post (.inl s) (Inv (i + k))) → (forIter body k i s).Clean post V := by
  intro k
  induction k with
  | zero => intro i s V h _ he; exact hpost _ _ _ (he s) h
  | succ k ih =>
    intro i s V h hb he
    unfold forIter
    rw [Clean_bind]
    refine (hb i s (le_refl _) (by omega)).mono h ?_
    intro r W W' hr hW
    cases r with
    | inl s' =>
      refine ih (i + 1) s' W' (hr.trans hW) (fun j s h1 h2 => hb j s (by omega) (by omega)) ?_
      intro s
      rw [show i + 1 + k = i + (k + 1) by omega]
      exact he s
    | inr o => exact hpost _ _ _ hr hW

theorem Clean_pfor {σ : Type} {body : ℕ → σ → Prog R S σ} {post : σ → Set ℕ → Prop} (Inv : ℕ → Set ℕ)
    (hpost : ∀ r W W', post r W → W ⊆ W' → post r W') :
    ∀ (k i : ℕ) (s : σ) (V : Set ℕ), Inv i ⊆ V →
    (∀ j s, i ≤ j → j < i + k → (body j s).Clean (fun _ W => Inv (j + 1) ⊆ W) (Inv j)) →
    (∀ s, post s (Inv (i + k))) → (pfor body k i s).Clean post V := by
  intro k
  induction k with
  | zero => intro i s V h _ he; exact hpost _ _ _ (he s) h
  | succ k ih =>
    intro i s V h hb he
    unfold pfor
    rw [Clean_bind]
    refine (hb i s (le_refl _) (by omega)).mono h ?_
    intro s' W W' hr hW
    refine ih (i + 1) s' W' (hr.trans hW) (fun j s h1 h2 => hb j s (by omega) (by omega)) ?_
    intro s
    rw [show i + 1 + k = i + (k + 1) by omega]
    exact he s

/-- the conclusion wanted of a solver -/
def OutOk (α : Type) (_ : α) (W : Set ℕ) : Prop := hX ∈ W ∧ hB ∈ W

theorem Clean_mainLoop {σ : Type} {body : ℕ → σ × S → Prog R S ((σ × S) ⊕ Out S)} (Inv : ℕ → Set ℕ)
    (hI : ∀ i, hX ∈ Inv i ∧ hB ∈ Inv i) {N : ℕ} {s : σ × S} {V : Set ℕ} (h : Inv 1 ⊆ V)
    (hb : ∀ j s, 1 ≤ j → (body j s).Clean (fun r W => match r with
      | .inl _ => Inv (j + 1) ⊆ W
      | .inr _ => hX ∈ W ∧ hB ∈ W) (Inv j)) :
    (mainLoop N body s).Clean (OutOk (Out S)) V := by
  unfold mainLoop
  rw [Clean_bind]
  refine Clean_forIter (post := fun a V => (match a with
    | .inl s => (pure ⟨.maxiter, N + 1, s.2⟩ : Prog R S (Out S))
    | .inr o => pure o).Clean (OutOk (Out S)) V) Inv ?_ N 1 s V h (fun j s h1 _ => (hb j s h1).mono (Set.Subset.refl _) ?_) ?_
  · rintro (r | r) W W' ⟨h1, h2⟩ hW
    · exact ⟨hW h1, hW h2⟩
    · exact ⟨hW h1, hW h2⟩
  · rintro (r | r) W W' h1 hW
    · exact Set.Subset.trans h1 hW
    · exact ⟨hW h1.1, hW h1.2⟩
  · intro s; exact hI _

section sub
variable {V : Set ℕ}

theorem Clean_getResidual [Mul S] {post : S → Set ℕ → Prop} (c : Conv) (t : Tols S) (r : ℕ) (h : r ∈ V) (hp : ∀ s, post s V) :
    (getResidual c t r : Prog R S S).Clean post V := by
  unfold getResidual
  cases c <;> simp only [Clean_bind, Clean_vNrm2, Clean_vNrm1, Clean_pure] <;> exact ⟨h, fun _ => hp _⟩

theorem Clean_checkResid [Mul S] {post : S → Set ℕ → Prop} (o : Opts R S) (t : Tols S) (iter r : ℕ) (h : r ∈ V)
    (hp : ∀ s, post s V) : (checkResid o t iter r : Prog R S S).Clean post V := by
  unfold checkResid
  rw [Clean_bind]
  refine Clean_getResidual _ _ _ h fun s => ?_
  simp only [Clean_bind, Clean_pure, Clean_ite, Clean_setHist]
  exact ⟨fun _ => hp _, fun _ => hp _⟩

theorem Clean_setShadow {post : Unit → Set ℕ → Prop} (o : Opts R S) (r0 rs0 : ℕ) (h : r0 ∈ V) (hp : post () (insert rs0 V)) :
    (setShadow o r0 rs0 : Prog R S Unit).Clean post V := by
  unfold setShadow
  split
  · rw [Clean_vFill]; exact hp
  · simp only [Clean_bind, Clean_vCopy, Clean_vConj, Set.mem_insert_iff, true_or, true_and, Set.insert_idem]
    refine ⟨h, ?_⟩
    simpa using hp

theorem Clean_initialResidual [One R] [Neg R] [RealOps S] {post : Out S ⊕ Tols S → Set ℕ → Prop} (o : Opts R S) (r : ℕ)
    (hr : hX ≠ r) (hb : hB ∈ V) (hx : hX ∈ V) (hp : ∀ s, post s (insert r V)) :
    (initialResidual o r hr).Clean post V := by
  have h1 : (initialP o.initZero r hr : Prog R S Unit).Clean (fun _ W => W = insert r V) V := by
    unfold initialP
    simp only [Clean_ite, Clean_bind, Clean_vCopy, Clean_mMatvec, Clean_vXpay, Set.mem_insert_iff, true_or, true_and,
      Set.insert_idem]
    simp [hb, hx]
  unfold initialResidual
  rw [Clean_bind]
  refine h1.mono' ?_
  rintro _ W rfl
  rw [Clean_bind]
  have h2 : (initialNorms o r : Prog R S (S × Tols S)).Clean (fun _ W => W = insert r V) (insert r V) := by
    unfold initialNorms
    cases o.conv <;> simp only [Clean_bind, Clean_vNrm2, Clean_vNrm1, Clean_pure] <;> simp [hb]
  refine h2.mono' ?_
  rintro _ W rfl
  simp only [Clean_ite, Clean_pure]
  exact ⟨fun _ => hp _, fun _ => hp _⟩

end sub

end Lis
