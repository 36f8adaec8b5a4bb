import Verif.Lemmas.Clean4

/-!
# BiCGSafe and BiCRSafe read unset work vectors, but multiply them by zero

`Sem`: the semantic counterpart of `Prog.Clean`, with rules for factors that are zero (`0 * a = 0` is assumed).
-/

namespace Lis
variable {R S : Type} {n : ℕ} {α β : Type}

/-- from states that agree on `V` the program ends alike, agreeing on the vectors `post` tells -/
def Sem [Add R] [Mul R] [Star R] (K : Kit R S n) (post : α → Set ℕ → Prop) (p : Prog R S α) (V : Set ℕ) : Prop :=
  ∀ (a0 b0 : Arr S) (s s' : MSt R S n), Agree V s.h s'.h → SameHist a0 b0 s.hist s'.hist →
    (p.run K s = none ∧ p.run K s' = none) ∨ ∃ a t t' W, p.run K s = some (a, t) ∧ p.run K s' = some (a, t') ∧ post a W ∧
      Agree W t.h t'.h ∧ SameHist a0 b0 t.hist t'.hist

section
variable [Add R] [Mul R] [Star R] {K : Kit R S n}

theorem Prog.Clean.sem {post : α → Set ℕ → Prop} {p : Prog R S α} {V : Set ℕ} (h : p.Clean post V) : Sem K post p V :=
  fun _ _ _ _ hV hs => h.sound K hV hs

theorem Sem_bind {post : β → Set ℕ → Prop} {p : Prog R S α} {f : α → Prog R S β} {V : Set ℕ}
    (h : Sem K (fun a W => Sem K post (f a) W) p V) : Sem K post (p >>= f) V := by
  intro a0 b0 s s' hV hs
  rcases h a0 b0 s s' hV hs with ⟨h1, h2⟩ | ⟨a, t, t', W, h1, h2, hp, hA, hh⟩
  · left; simp [Prog.run_bind, h1, h2]
  · simp only [Prog.run_bind, h1, h2, Option.bind_some]
    exact hp a0 b0 t t' hA hh

theorem Sem_pure {post : α → Set ℕ → Prop} {a : α} {V : Set ℕ} (h : post a V) : Sem K post (pure a) V :=
  fun _ _ s s' hV hs => Or.inr ⟨a, s, s', V, rfl, rfl, h, hV, hs⟩

/-- a single call that reads only known vectors -/
theorem Sem_call {post : Unit → Set ℕ → Prop} (o : VOp R) {V : Set ℕ} (hr : ∀ v ∈ o.reads, v ∈ V)
    (h : post () (insert o.target V)) : Sem K post (.vop o (.ret ())) V :=
  Prog.Clean.sem (p := .vop o (.ret ())) ⟨hr, h⟩

end

section zero
variable [Add R] [MulZeroClass R] [Star R] {K : Kit R S n}

theorem Sem_scale0 {post : Unit → Set ℕ → Prop} (x : ℕ) {V : Set ℕ} (h : post () (insert x V)) :
    Sem K post (vScale 0 x) V := by
  intro a0 b0 s s' hV hs
  refine Or.inr ⟨(), _, _, insert x V, rfl, rfl, h, ?_, hs⟩
  rintro v (rfl | hv)
  · simp [VOp.run]
  · by_cases e : v = x
    · subst e; simp [VOp.run]
    · simp only [VOp.run, Function.update_of_ne e]; exact hV v hv

theorem Sem_xpay0 {post : Unit → Set ℕ → Prop} (x y : ℕ) {V : Set ℕ} (hx : x ∈ V) (h : post () (insert y V)) :
    Sem K post (vXpay x 0 y) V := by
  intro a0 b0 s s' hV hs
  refine Or.inr ⟨(), _, _, insert y V, rfl, rfl, h, ?_, hs⟩
  rintro v (rfl | hv)
  · simp [VOp.run, hV x hx]
  · by_cases e : v = y
    · subst e; simp [VOp.run, hV x hx]
    · simp only [VOp.run, Function.update_of_ne e]; exact hV v hv

theorem Sem_axpy0 {post : Unit → Set ℕ → Prop} (x y : ℕ) {V : Set ℕ} (hy : y ∈ V) (h : post () V) :
    Sem K post (vAxpy 0 x y) V := by
  intro a0 b0 s s' hV hs
  refine Or.inr ⟨(), _, _, V, rfl, rfl, h, ?_, hs⟩
  intro v hv
  by_cases e : v = y
  · subst e; simp [VOp.run, hV v hv]
  · simp only [VOp.run, Function.update_of_ne e]; exact hV v hv

theorem Sem_copyUnknown {post : Unit → Set ℕ → Prop} (x y : ℕ) {V : Set ℕ} (hy : y ∉ V) (h : post () V) :
    Sem K post (vCopy x y) V := by
  intro a0 b0 s s' hV hs
  refine Or.inr ⟨(), _, _, V, rfl, rfl, h, ?_, hs⟩
  intro v hv
  have e : v ≠ y := fun e => hy (e ▸ hv)
  simp only [VOp.run, Function.update_of_ne e]; exact hV v hv

theorem Sem_qsiEta1 [Div R] [Sub R] {post : R × R → Set ℕ → Prop} (y am t : ℕ) {V : Set ℕ} (ha : am ∈ V) (ht : t ∈ V)
    (h : ∀ q, post (q, 0) V) : Sem K post (qsiEta 1 y am t) V := by
  intro a0 b0 s s' hV hs
  refine Or.inr ⟨(K.dot (s.h am) (s.h t) / K.dot (s.h am) (s.h am), 0), s, s', V, ?_, ?_, h _, hV, hs⟩
  · simp only [qsiEta, vDot, Prog.run_bind, if_true]; rfl
  · rw [hV am ha, hV t ht]
    simp only [qsiEta, vDot, Prog.run_bind, if_true]; rfl

end zero

/-- run a clean program, then go on -/
theorem Sem_then [Add R] [Mul R] [Star R] {K : Kit R S n} {post : β → Set ℕ → Prop} {p : Prog R S α} {f : α → Prog R S β} {V : Set ℕ}
    (h : p.Clean (fun a W => Sem K post (f a) W) V) : Sem K post (p >>= f) V := Sem_bind h.sem

section
variable [Zero R] [One R] [Add R] [Neg R] [Mul R] [Div R] [Sub R] [Star R] [DecidableEq R] [RealOps S]

theorem qsiEta_clean {post : R × R → Set ℕ → Prop} (iter y am t : ℕ) {V : Set ℕ} (hy : y ∈ V) (ha : am ∈ V) (ht : t ∈ V)
    (h : ∀ r, post r V) : (qsiEta iter y am t : Prog R S _).Clean post V := by
  unfold qsiEta
  simp only [Clean_bind, Clean_vDot, Clean_ite, Clean_pure]
  exact ⟨hy, hy, fun _ => ⟨ha, ht, fun _ => ⟨hy, ht, fun _ => ⟨ha, hy, fun _ => ⟨ha, ha, fun _ => ⟨fun _ => h _, fun _ => h _⟩⟩⟩⟩⟩⟩

/-- a loop whose first pass has been looked at separately -/
theorem Sem_mainLoop {K : Kit R S n} {σ : Type} {body : ℕ → σ × S → Prog R S ((σ × S) ⊕ Out S)} {I J : Set ℕ}
    (hI : hX ∈ I ∧ hB ∈ I) (hJ : hX ∈ J ∧ hB ∈ J) {N : ℕ} {s : σ × S}
    (h1 : Sem K (fun r W => match r with
      | .inl _ => J ⊆ W
      | .inr _ => hX ∈ W ∧ hB ∈ W) (body 1 s) I)
    (hb : ∀ j s, 2 ≤ j → (body j s).Clean (fun r W => match r with
      | .inl _ => J ⊆ W
      | .inr _ => hX ∈ W ∧ hB ∈ W) J) :
    Sem K (OutOk (Out S)) (mainLoop N body s) I := by
  unfold mainLoop
  cases N with
  | zero => exact Sem_pure hI
  | succ N =>
    unfold forIter
    refine Sem_bind (Sem_bind ?_)
    intro a0 b0 t t' hV hs
    rcases h1 a0 b0 t t' hV hs with h | ⟨a, u, u', W, e1, e2, hp, hA, hh⟩
    · exact Or.inl h
    refine Or.inr ⟨a, u, u', W, e1, e2, ?_, hA, hh⟩
    cases a with
    | inr o => exact Sem_pure (Sem_pure hp)
    | inl s' =>
      refine Prog.Clean.sem (Clean_forIter (fun _ => J) ?_ _ _ _ _ hp (fun j s h _ => (hb j s h).mono' ?_) ?_)
      · intro r W W' h hW a0 b0 s s' hV hs
        exact h a0 b0 s s' (fun v hv => hV v (hW hv)) hs
      · rintro (r | r) W h
        · exact h
        · exact Sem_pure h
      · intro s; exact Sem_pure hJ

end

section safe
variable [One R] [Neg R] [Add R] [MulZeroClass R] [Div R] [Sub R] [Star R] [DecidableEq R] [RealOps S]

macro "sem" : tactic => `(tactic| repeat' first
  | with_reducible refine qsiEta_clean _ _ _ _ (by cl_mem) (by cl_mem) (by cl_mem) ?_
  | cl1)

theorem bicgsafe_sem (K : Kit R S n) (junk : S) (o : Opts R S) : Sem K (OutOk (Out S)) (lisBicgsafe junk o) {hB, hX} := by
  unfold lisBicgsafe
  refine Sem_then ?_
  cl
  split
  · exact Sem_pure (by cl_end)
  · rename_i t
    refine Sem_then ?_
    cl
    refine Sem_then ?_
    cl
    refine Sem_then ?_
    cl
    refine Sem_then ?_
    cl
    refine Sem_then ?_
    cl
    refine Sem_then ?_
    cl
    refine Sem_mainLoop (J := {hB, hX, wk 0, wk 1, wk 2, wk 3, wk 4, wk 5, wk 8, wk 9, wk 10}) (by cl_end) (by cl_end) ?_ ?_
    · unfold bicgsafeBody
      refine Sem_then ?_
      cl
      refine Sem_bind (Sem_qsiEta1 _ _ _ (by cl_mem) (by cl_mem) fun q => ?_)
      simp only [mul_zero]
      refine Sem_bind (Sem_copyUnknown _ _ (by simp only [Set.mem_insert_iff, Set.mem_singleton_iff, hB, hX, wk]; omega) ?_)
      refine Sem_bind (Sem_scale0 _ ?_)
      refine Sem_then ?_
      cl
      refine Sem_then ?_
      cl
      refine Sem_bind (Sem_xpay0 _ _ (by cl_mem) ?_)
      refine Sem_then ?_
      cl
      refine Sem_bind (Sem_scale0 _ ?_)
      refine Sem_then ?_
      cl
      refine Sem_then ?_
      cl
      refine Sem_bind (Sem_scale0 _ ?_)
      refine Prog.Clean.sem ?_
      cl
      all_goals cl_end
    · intro j s hj
      unfold bicgsafeBody
      sem
      all_goals cl_end

theorem bicrsafe_sem (K : Kit R S n) (junk : S) (o : Opts R S) : Sem K (OutOk (Out S)) (lisBicrsafe junk o) {hB, hX} := by
  unfold lisBicrsafe
  refine Sem_then ?_
  cl
  split
  · exact Sem_pure (by cl_end)
  · rename_i t
    refine Sem_then ?_
    cl
    refine Sem_then ?_
    cl
    refine Sem_then ?_
    cl
    refine Sem_then ?_
    cl
    refine Sem_then ?_
    cl
    refine Sem_then ?_
    cl
    refine Sem_then ?_
    cl
    refine Sem_mainLoop (J := {hB, hX, wk 0, wk 1, wk 2, wk 3, wk 4, wk 5, wk 7, wk 8, wk 9, wk 10, wk 12}) (by cl_end) (by cl_end) ?_ ?_
    · unfold bicrsafeBody
      refine Sem_then ?_
      cl
      refine Sem_then ?_
      cl
      refine Sem_bind (Sem_qsiEta1 _ _ _ (by cl_mem) (by cl_mem) fun q => ?_)
      simp only [mul_zero]
      refine Sem_bind (Sem_scale0 _ ?_)
      refine Sem_then ?_
      cl
      refine Sem_bind (Sem_axpy0 _ _ (by cl_mem) ?_)
      refine Sem_then ?_
      cl
      refine Sem_bind (Sem_scale0 _ ?_)
      refine Sem_then ?_
      cl
      refine Sem_then ?_
      cl
      refine Sem_bind (Sem_scale0 _ ?_)
      refine Prog.Clean.sem ?_
      cl
      all_goals cl_end
    · intro j s hj
      unfold bicrsafeBody
      sem
      all_goals cl_end

end safe

end Lis
