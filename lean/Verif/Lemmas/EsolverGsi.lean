import Verif.Spec.EsolverGsi
import Verif.Lemmas.EsolverSi

namespace Lis
variable {R S M : Type} {n : ℕ}

variable [Zero R] [One R] [Add R] [Neg R] [Sub R] [Mul R] [Div R] [Star R] [DecidableEq R] [RealOps S] [EigOps R S]

omit [Zero R] [One R] [Sub R] [Div R] [DecidableEq R] [RealOps S] [EigOps R S] in
theorem run_sgOrth (K : EKit R S M n) (j : ℕ) (s : ESt R S M n) : ∀ k, k < j → ((sgOrth j k) : EProg R S Unit).run K s =
    some ((), { s with h := (Function.update s.h (4 + j)
        (orthAll K.base ((List.range k).map fun i => s.h (4 + (i + 1))) (s.h (4 + j)))) }) := by
  intro k
  induction k with
  | zero => intro _; simp [sgOrth, orthAll]
  | succ k ih =>
    intro hk
    rw [sgOrth, EProg.run_bind, ih (by omega)]
    simp only [Option.bind_some, EProg.run_bind, run_eDot, run_eAxpy]
    rw [List.range_succ, List.map_append, List.map_singleton, orthAll_snoc]
    have e : 4 + (k + 1) ≠ 4 + j := by omega
    simp [Function.update_of_ne e]

/-- the machine of mode `j` is at `q`; `s0` is the machine before the mode's iterations -/
structure SgAt (m : M) (j : ℕ) (s0 : ESt R S M n) (q : SgPt R S n) (st : Err × R × S) (s : ESt R S M n) : Prop where
  st : st = (q.err, q.theta, q.resid)
  mat : s.m = m
  frame : ∀ z, z ≠ 1 → z ≠ 2 → z ≠ 3 → z ≠ 4 + j → s.h z = s0.h z
  vec : q.err = .success → s.h 1 = q.v ∧ s.h (4 + j) = q.v ∧ s.h 2 = q.w

/-- the history after an iteration of mode `j` -/
def sgRec (o : EOpts R S) (j i : ℕ) (q : SgPt R S n) (a : Arr S) : Arr S :=
  if q.err = .success ∧ j = 1 then ERec o i q.resid a else a

omit [Zero R] [Neg R] [Sub R] [DecidableEq R] in
theorem run_sgApply (K : EKit R S M n) (b : Bool) (j : ℕ) (s : ESt R S M n) :
    let f := sgFactor K b s.m (s.h (4 + j))
    let w := smulV f (K.mv b s.m (s.h (4 + j)))
    (sgApply b j : EProg R S Err).run K s = some ((K.lin (!b) s.m w (s.h 1)).1,
      { s with h := (Function.update (Function.update (Function.update s.h 2 w) (4 + j) (smulV f (s.h (4 + j)))) 1
          (K.lin (!b) s.m w (s.h 1)).2) }) := by
  intro f w
  have e1 : (4 + j) ≠ 2 := by omega
  have e2 : (4 + j) ≠ 1 := by omega
  unfold sgApply
  simp only [EProg.run_bind, run_eMatvec, run_eDot, run_eScale, run_eLin, Option.bind_some, Function.update_self,
    Function.update_of_ne e1, Function.update_of_ne e1.symm, Function.update_of_ne e2.symm,
    Function.update_of_ne (show (1 : ℕ) ≠ 2 by decide)]
  have hw : (Function.update (Function.update (Function.update s.h 2 (K.mv b s.m (s.h (4 + j)))) (4 + j)
      (smulV f (s.h (4 + j)))) 2 w) = Function.update (Function.update s.h 2 w) (4 + j) (smulV f (s.h (4 + j))) := by
    rw [Function.update_comm e1, Function.update_idem]
  exact congrArg (fun h : ℕ → Fin n → R => some ((K.lin (!b) s.m w (s.h 1)).1,
    ({ s with h := Function.update h 1 (K.lin (!b) s.m w (s.h 1)).2 } : ESt R S M n))) hw

theorem sgBody_ok (K : EKit R S M n) (lt : S → S → Bool) (inner : SgInner) (o : EOpts R S) (m : M) (j i : ℕ) (hj : 1 ≤ j)
    (s0 : ESt R S M n) (q : SgPt R S n) (st : Err × R × S) (s : ESt R S M n) (h : SgAt m j s0 q st s)
    (hq : q.err = .success) (hi : i < s.hist.size) (vs : List (Fin n → R))
    (hvs : vs = (List.range (j - 1)).map fun i => s0.h (4 + (i + 1))) :
    Ok ((sgBody lt inner o j i st).run K s) fun r =>
      r.1.1 = sgStop lt o (sgStep K inner m vs q) ∧ SgAt m j s0 (sgStep K inner m vs q) r.1.2 r.2 ∧
      r.2.hist = sgRec o j i (sgStep K inner m vs q) s.hist := by
  obtain ⟨h1, h2, h3, h4⟩ := h
  obtain ⟨h5, h6, h7⟩ := h4 hq
  have hvs' : ((List.range (j - 1)).map fun i => s.h (4 + (i + 1))) = vs := by
    rw [hvs]
    refine List.map_congr_left fun k hk => ?_
    rw [List.mem_range] at hk
    exact h3 _ (by omega) (by omega) (by omega) (by omega)
  unfold sgBody
  rw [EProg.run_bind, run_sgOrth K j s (j - 1) (by omega), hvs', h6, Option.bind_some]
  obtain ⟨u, hu⟩ : ∃ u, u = orthAll K.base vs q.v := ⟨_, rfl⟩
  rw [← hu]
  have e1 : (4 + j) ≠ 1 := by omega
  have e2 : (4 + j) ≠ 2 := by omega
  have e3 : (4 + j) ≠ 3 := by omega
  have hk : ∃ s1 : ESt R S M n, ((sgKernel inner j) : EProg R S Err).run K
      { s with h := Function.update s.h (4 + j) u } = some ((sgImage K inner m u q.v q.w).1, s1) ∧
      s1.m = m ∧ s1.hist = s.hist ∧ (∀ z, z ≠ 1 → z ≠ 2 → z ≠ 3 → z ≠ 4 + j → s1.h z = s0.h z) ∧
      s1.h (4 + j) = (sgImage K inner m u q.v q.w).2.1 ∧ s1.h 2 = (sgImage K inner m u q.v q.w).2.2.1 ∧
      s1.h 1 = (sgImage K inner m u q.v q.w).2.2.2 := by
    have e : (Function.update s.h (4 + j) u) 1 = q.v := by rw [Function.update_of_ne e1.symm, h5]
    subst h2
    cases inner with
    | gpi =>
      have := run_sgApply K false j { s with h := Function.update s.h (4 + j) u }
      simp only [Function.update_self, e] at this
      refine ⟨_, this, rfl, rfl, fun z z1 z2 z3 z4 => ?_, ?_, ?_, ?_⟩
      · simp only [Function.update_of_ne z1, Function.update_of_ne z2, Function.update_of_ne z4, h3 z z1 z2 z3 z4]
      · simp only [Function.update_of_ne e1, Function.update_self]; rfl
      · simp only [Function.update_of_ne (show (2 : ℕ) ≠ 1 by decide), Function.update_of_ne e2.symm, Function.update_self]; rfl
      · simp only [Function.update_self]; rfl
    | gii =>
      have := run_sgApply K true j { s with h := Function.update s.h (4 + j) u }
      simp only [Function.update_self, e] at this
      refine ⟨_, this, rfl, rfl, fun z z1 z2 z3 z4 => ?_, ?_, ?_, ?_⟩
      · simp only [Function.update_of_ne z1, Function.update_of_ne z2, Function.update_of_ne z4, h3 z z1 z2 z3 z4]
      · simp only [Function.update_of_ne e1, Function.update_self]; rfl
      · simp only [Function.update_of_ne (show (2 : ℕ) ≠ 1 by decide), Function.update_of_ne e2.symm, Function.update_self]; rfl
      · simp only [Function.update_self]; rfl
    | other =>
      refine ⟨_, rfl, rfl, rfl, fun z z1 z2 z3 z4 => ?_, ?_, ?_, ?_⟩
      · simp [Function.update_of_ne, z4, h3 z z1 z2 z3 z4]
      · simp [sgImage]
      · simp [sgImage, Function.update_of_ne e2.symm, h7]
      · simp [sgImage, Function.update_of_ne e1.symm, h5]
  obtain ⟨s1, k1, k2, k3, k4, k5, k6, k7⟩ := hk
  rw [EProg.run_bind, k1, Option.bind_some, EProg.run_ite]
  unfold sgStep
  simp only [← hu]
  split
  · rename_i he
    simp only [EProg.run_pure, Ok_some]
    refine ⟨by simp [sgStop, he], ⟨by rw [h1], k2, k4, fun h => absurd h he⟩, by simp [sgRec, he, k3]⟩
  · rename_i he
    simp only [EProg.run_bind, run_eNrm2, run_eNormalize, Option.bind_some, run_eDot, run_eAxpyz', run_eCopy]
    have hr : ∀ (v : S) (s2 : ESt R S M n), s2.hist = s.hist → (siRecord o j i v : EProg R S Unit).run K s2 =
        some ((), { s2 with hist := if j = 1 then ERec o i v s.hist else s.hist }) := by
      intro v s2 hs
      unfold siRecord
      rw [EProg.run_ite]
      split
      · rw [run_eRecord _ _ _ _ _ (by rw [hs]; exact hi), hs]
      · simp [← hs]
    rw [hr _ _ (by simpa using k3)]
    simp only [Option.bind_some, EProg.run_pure, Ok_some]
    refine ⟨?_, ⟨?_, k2, ?_, ?_⟩, ?_⟩
    · simp [sgStop, k5, k6, k7, relRes]
      rfl
    · simp [k5, k6, k7, relRes]
      rfl
    · intro z z1 z2 z3 z4
      simp [Function.update_of_ne, z1, z3, z4, k4 z z1 z2 z3 z4]
    · intro _
      simp [Function.update_of_ne, e1.symm, e2.symm, k6, k7]
    · simp [sgRec, k5, k6, k7, relRes]
      rfl

/-- the iterations of mode `j` -/
theorem sgWhile_ok (K : EKit R S M n) (lt : S → S → Bool) (inner : SgInner) (o : EOpts R S) (m : M) (j : ℕ) (hj : 1 ≤ j)
    (s0 : ESt R S M n) (hsz : o.maxiter < s0.hist.size) (vs : List (Fin n → R))
    (hvs : vs = (List.range (j - 1)).map fun i => s0.h (4 + (i + 1))) (q0 : SgPt R S n) :
    ∀ (k i : ℕ) (st : Err × R × S) (s : ESt R S M n), i + k = o.maxiter →
      SgAt m j s0 ((sgStep K inner m vs)^[i] q0) st s → ((sgStep K inner m vs)^[i] q0).err = .success →
      s.hist.size = s0.hist.size →
      (o.mem = true → j = 1 → ∀ l, 1 ≤ l → l ≤ i → ((sgStep K inner m vs)^[l] q0).err = .success →
        s.hist.get l = ((sgStep K inner m vs)^[l] q0).resid) →
      (∀ l, (o.mem = false ∨ j ≠ 1 ∨ l = 0 ∨ i < l) → s.hist.get l = s0.hist.get l) →
      Ok ((eWhile (sgBody lt inner o j) k i st).run K s) fun r =>
        r.1.1 = iters (fun i => sgStop lt o ((sgStep K inner m vs)^[i] q0)) k i ∧
        SgAt m j s0 ((sgStep K inner m vs)^[r.1.1] q0) r.1.2 r.2 ∧ r.2.hist.size = s0.hist.size ∧
        (o.mem = true → j = 1 → ∀ l, 1 ≤ l → l ≤ r.1.1 → ((sgStep K inner m vs)^[l] q0).err = .success →
          r.2.hist.get l = ((sgStep K inner m vs)^[l] q0).resid) ∧
        (∀ l, (o.mem = false ∨ j ≠ 1 ∨ l = 0 ∨ r.1.1 < l) → r.2.hist.get l = s0.hist.get l) := by
  intro k
  induction k with
  | zero =>
    intro i st s hi hA he h2 h3 h4
    simp only [eWhile, EProg.run_pure, Ok_some]
    exact ⟨rfl, hA, h2, h3, h4⟩
  | succ k ih =>
    intro i st s hi hA he h2 h3 h4
    simp only [eWhile, EProg.run_bind, Ok_obind]
    refine (sgBody_ok K lt inner o m j (i + 1) hj s0 _ st s hA he (by omega) vs hvs).mono ?_
    rintro ⟨⟨b, st'⟩, s'⟩ ⟨e1, e2, e3⟩
    simp only at e1 e2 e3 ⊢
    rw [← Function.iterate_succ_apply' (sgStep K inner m vs) i q0] at e1 e2 e3
    have g : s'.hist.size = s0.hist.size ∧
        (o.mem = true → j = 1 → ∀ l, 1 ≤ l → l ≤ i + 1 → ((sgStep K inner m vs)^[l] q0).err = .success →
          s'.hist.get l = ((sgStep K inner m vs)^[l] q0).resid) ∧
        (∀ l, (o.mem = false ∨ j ≠ 1 ∨ l = 0 ∨ i + 1 < l) → s'.hist.get l = s0.hist.get l) := by
      rw [e3]
      unfold sgRec
      split
      · rename_i hc
        unfold ERec
        split
        · refine ⟨by simpa using h2, fun hm hj l l1 l2 le => ?_, fun l hl => ?_⟩
          · by_cases hl : l = i + 1
            · rw [hl, Arr.set_get_self]
            · rw [Arr.set_get_ne _ _ (by omega)]; exact h3 hm hj l l1 (by omega) le
          · rename_i hm
            rw [Arr.set_get_ne _ _ (by
              rcases hl with h | h | h | h
              · rw [hm] at h; simp at h
              · exact absurd hc.2 h
              · omega
              · omega)]
            exact h4 l (by
              rcases hl with h | h | h | h
              · exact Or.inl h
              · exact Or.inr (Or.inl h)
              · exact Or.inr (Or.inr (Or.inl h))
              · exact Or.inr (Or.inr (Or.inr (by omega))))
        · rename_i hm
          exact ⟨h2, fun h => absurd h hm, fun l hl => h4 l (Or.inl (by simpa using hm))⟩
      · rename_i hc
        refine ⟨h2, fun hm hj l l1 l2 le => ?_, fun l hl => h4 l (by
          rcases hl with h | h | h | h
          · exact Or.inl h
          · exact Or.inr (Or.inl h)
          · exact Or.inr (Or.inr (Or.inl h))
          · exact Or.inr (Or.inr (Or.inr (by omega))))⟩
        by_cases hl : l = i + 1
        · rw [hl] at le; exact absurd ⟨le, hj⟩ hc
        · exact h3 hm hj l l1 (by omega) le
    rw [EProg.run_ite]
    unfold iters
    cases b with
    | true =>
      simp only [if_true, EProg.run_pure, Ok_some]
      rw [← e1]
      exact ⟨by simp, e2, g⟩
    | false =>
      simp only [Bool.false_eq_true, if_false]
      refine (ih (i + 1) st' s' (by omega) e2 ?_ g.1 g.2.1 g.2.2).mono ?_
      · have := e1.symm
        simp only [sgStop, Bool.or_eq_false_iff, decide_eq_false_iff_not, not_not] at this
        exact this.1
      · rintro r ⟨a1, a2⟩
        refine ⟨?_, a2⟩
        rw [a1, ← e1]; simp

/-- mode `j` -/
theorem sgMode_ok (K : EKit R S M n) (lt : S → S → Bool) (inner : SgInner) (perrA perrB : ℕ → Err) (ss : ℕ) (o : EOpts R S)
    (j : ℕ) (hj : 1 ≤ j) (hjs : j ≤ ss) (s0 : ESt R S M n) (hsz : o.maxiter < s0.hist.size) (vs : List (Fin n → R))
    (hvs : vs = (List.range (j - 1)).map fun i => s0.h (4 + (i + 1))) (q0 : SgPt R S n) (he : q0.err = .success)
    (hv : s0.h 1 = q0.v) (hw : s0.h 2 = q0.w) (hp : sgPrecon inner perrA perrB j = .success) :
    Ok ((sgMode lt inner perrA perrB ss o j (q0.theta, q0.resid)).run K s0) fun r =>
      r.1 = ((sgLast K lt inner o s0.m vs q0).err, sgIters K lt inner o s0.m vs q0, (sgLast K lt inner o s0.m vs q0).theta,
        (sgLast K lt inner o s0.m vs q0).resid) ∧ r.2.m = s0.m ∧
      (∀ z, z ≠ 1 → z ≠ 2 → z ≠ 3 → z ≠ 4 + j → z ≠ ss + 4 + j → r.2.h z = s0.h z) ∧
      ((sgLast K lt inner o s0.m vs q0).err = .success → r.2.h 1 = (sgLast K lt inner o s0.m vs q0).v ∧
        r.2.h 2 = (sgLast K lt inner o s0.m vs q0).w ∧
        r.2.h (4 + j) = (sgLast K lt inner o s0.m vs q0).v ∧ r.2.h (ss + 4 + j) = (sgLast K lt inner o s0.m vs q0).v) ∧
      r.2.hist.size = s0.hist.size ∧
      (o.mem = true → j = 1 → ∀ l, 1 ≤ l → l ≤ sgIters K lt inner o s0.m vs q0 →
        ((sgStep K inner s0.m vs)^[l] q0).err = .success →
          r.2.hist.get l = ((sgStep K inner s0.m vs)^[l] q0).resid) ∧
      (∀ l, (o.mem = false ∨ j ≠ 1 ∨ l = 0 ∨ sgIters K lt inner o s0.m vs q0 < l) → r.2.hist.get l = s0.hist.get l) := by
  unfold sgMode
  simp only [EProg.run_bind, run_eCopy, Option.bind_some, hp, ne_eq, not_true_eq_false, if_false, Ok_obind]
  obtain ⟨s1, hs1⟩ : ∃ s1 : ESt R S M n, s1 = { s0 with h := Function.update s0.h (4 + j) (s0.h 1) } := ⟨_, rfl⟩
  rw [← hs1]
  have hm1 : s1.m = s0.m := by rw [hs1]
  have hh1 : s1.hist = s0.hist := by rw [hs1]
  have hf1 : ∀ z, z ≠ 4 + j → s1.h z = s0.h z := fun z hz => by rw [hs1]; simp [Function.update_of_ne hz]
  have hvs1 : vs = (List.range (j - 1)).map fun i => s1.h (4 + (i + 1)) := by
    rw [hvs]
    refine List.map_congr_left fun k hk => ?_
    rw [List.mem_range] at hk
    exact (hf1 _ (by omega)).symm
  refine (sgWhile_ok K lt inner o s0.m j hj s1 (by rw [hh1]; exact hsz) vs hvs1 q0 o.maxiter 0 _ s1 (by omega)
    ⟨by simp [he], hm1, fun _ _ _ _ _ => rfl,
      fun _ => ⟨by rw [hf1 1 (by omega)]; exact hv, by rw [hs1]; simpa using hv, by rw [hf1 2 (by omega)]; exact hw⟩⟩ he rfl
    (fun _ _ l _ _ => by omega) (fun _ _ => rfl)).mono ?_
  rintro ⟨⟨k, st⟩, s2⟩ ⟨a1, a2, a3, a4, a5⟩
  simp only at a1 a2 a3 a4 a5 ⊢
  have hk : k = sgIters K lt inner o s0.m vs q0 := a1
  have hl : (sgStep K inner s0.m vs)^[k] q0 = sgLast K lt inner o s0.m vs q0 := by rw [hk]; rfl
  rw [hl] at a2
  rw [hh1] at a3 a5
  rw [EProg.run_ite, a2.st]
  simp only
  split
  · rename_i hc
    simp only [EProg.run_pure, Ok_some]
    refine ⟨by rw [hk], a2.mat, fun z z1 z2 z3 z4 z5 => ?_, fun h => absurd h hc, a3, ?_, ?_⟩
    · rw [a2.frame z z1 z2 z3 z4, hf1 z z4]
    · rw [← hk]; exact a4
    · rw [← hk]; exact a5
  · rename_i hc
    rw [not_not] at hc
    simp only [EProg.run_bind, run_eCopy, Option.bind_some, EProg.run_pure, Ok_some]
    have e3 : ss + 4 + j ≠ 4 + j := by omega
    refine ⟨by rw [hk, hc], a2.mat, fun z z1 z2 z3 z4 z5 => ?_, fun _ => ⟨?_, ?_, ?_, ?_⟩, a3, ?_, ?_⟩
    · rw [Function.update_of_ne z5, a2.frame z z1 z2 z3 z4, hf1 z z4]
    · rw [Function.update_of_ne (by omega)]; exact (a2.vec hc).1
    · rw [Function.update_of_ne (by omega)]; exact (a2.vec hc).2.2
    · rw [Function.update_of_ne (by omega)]; exact (a2.vec hc).2.1
    · rw [Function.update_self]; exact (a2.vec hc).2.1
    · rw [← hk]; exact a4
    · rw [← hk]; exact a5

end Lis
