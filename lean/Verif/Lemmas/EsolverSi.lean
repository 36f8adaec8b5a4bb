import Verif.Spec.EsolverSi
import Verif.Lemmas.EsolverCg

namespace Lis
variable {R S M : Type} {n : ℕ}

theorem iters_spec (stop : ℕ → Bool) : ∀ k i, (∀ j, 1 ≤ j → j ≤ i → stop j = false) →
    i ≤ iters stop k i ∧ iters stop k i ≤ i + k ∧ (∀ j, 1 ≤ j → j < iters stop k i → stop j = false) ∧
      (iters stop k i < i + k → 1 ≤ iters stop k i ∧ stop (iters stop k i) = true) := by
  intro k
  induction k with
  | zero =>
    intro i h
    exact ⟨le_rfl, le_rfl, fun j h1 h2 => h j h1 (le_of_lt h2), fun h => absurd h (lt_irrefl _)⟩
  | succ k ih =>
    intro i h
    unfold iters
    split
    · rename_i hs
      exact ⟨by omega, by omega, fun j h1 h2 => h j h1 (by omega), fun _ => ⟨by omega, hs⟩⟩
    · rename_i hs
      obtain ⟨a, b, c, d⟩ := ih (i + 1) (fun j h1 h2 => by
        by_cases hj : j = i + 1
        · rw [hj]; simpa using hs
        · exact h j h1 (by omega))
      exact ⟨by omega, by omega, c, fun h => d (by omega)⟩

variable [Zero R] [One R] [Add R] [Neg R] [Sub R] [Mul R] [Div R] [Star R] [DecidableEq R] [RealOps S] [EigOps R S]

omit [Zero R] [One R] [Sub R] [Div R] [DecidableEq R] [RealOps S] [EigOps R S] in
theorem orthAll_snoc (K : Kit R S n) (vs : List (Fin n → R)) (w v : Fin n → R) :
    orthAll K (vs ++ [w]) v = axpyV (-K.dot (orthAll K vs v) w) w (orthAll K vs v) := by
  unfold orthAll
  rw [List.foldl_append]; rfl

omit [Zero R] [One R] [Sub R] [Div R] [DecidableEq R] [RealOps S] [EigOps R S] in
theorem run_siOrth (K : EKit R S M n) (j : ℕ) (s : ESt R S M n) : ∀ k, k < j → ((siOrth j k) : EProg R S Unit).run K s =
    some ((), { s with h := (Function.update s.h (3 + j)
        (orthAll K.base ((List.range k).map fun i => s.h (3 + (i + 1))) (s.h (3 + j)))) }) := by
  intro k
  induction k with
  | zero => intro _; simp [siOrth, orthAll]
  | succ k ih =>
    intro hk
    rw [siOrth, EProg.run_bind, ih (by omega)]
    simp only [Option.bind_some, EProg.run_bind, run_eDot, run_eAxpy]
    rw [List.range_succ, List.map_append, List.map_singleton, orthAll_snoc]
    have e : 3 + (k + 1) ≠ 3 + j := by omega
    simp [Function.update_of_ne e]

/-- the machine of mode `j` is at `q`; `s0` is the machine before the mode's iterations -/
structure SiAt (m : M) (j : ℕ) (s0 : ESt R S M n) (q : SiPt R S n) (st : Err × R × S) (s : ESt R S M n) : Prop where
  st : st = (q.err, q.theta, q.resid)
  mat : s.m = m
  frame : ∀ z, z ≠ 1 → z ≠ 2 → z ≠ 3 + j → s.h z = s0.h z
  vec : q.err = .success → s.h 1 = q.v ∧ s.h (3 + j) = q.v

/-- the history after an iteration of mode `j` -/
def siRec (o : EOpts R S) (j i : ℕ) (q : SiPt R S n) (a : Arr S) : Arr S :=
  if q.err = .success ∧ j = 1 then ERec o i q.resid a else a

theorem siBody_ok (K : EKit R S M n) (lt : S → S → Bool) (inner : SiInner) (o : EOpts R S) (m : M) (j i : ℕ) (hj : 1 ≤ j)
    (s0 : ESt R S M n) (q : SiPt R S n) (st : Err × R × S) (s : ESt R S M n) (h : SiAt m j s0 q st s)
    (hq : q.err = .success) (hi : i < s.hist.size) (vs : List (Fin n → R))
    (hvs : vs = (List.range (j - 1)).map fun i => s0.h (3 + (i + 1))) :
    Ok ((siBody lt inner o j i st).run K s) fun r =>
      r.1.1 = siStop lt o (siStep K inner m vs q) ∧ SiAt m j s0 (siStep K inner m vs q) r.1.2 r.2 ∧
      r.2.hist = siRec o j i (siStep K inner m vs q) s.hist := by
  obtain ⟨h1, h2, h3, h4⟩ := h
  obtain ⟨h5, h6⟩ := h4 hq
  have hvs' : ((List.range (j - 1)).map fun i => s.h (3 + (i + 1))) = vs := by
    rw [hvs]
    refine List.map_congr_left fun k hk => ?_
    rw [List.mem_range] at hk
    exact h3 _ (by omega) (by omega) (by omega)
  unfold siBody
  rw [EProg.run_bind, run_siOrth K j s (j - 1) (by omega), hvs', h6, Option.bind_some]
  obtain ⟨u, hu⟩ : ∃ u, u = orthAll K.base vs q.v := ⟨_, rfl⟩
  rw [← hu]
  have e1 : (3 + j) ≠ 1 := by omega
  have e2 : (3 + j) ≠ 2 := by omega
  have hk : ∃ s1 : ESt R S M n, ((siKernel inner j) : EProg R S Err).run K
      { s with h := Function.update s.h (3 + j) u } = some ((siImage K inner m u q.v).1, s1) ∧
      s1.m = m ∧ s1.hist = s.hist ∧ (∀ z, z ≠ 1 → z ≠ 2 → z ≠ 3 + j → s1.h z = s0.h z) ∧ s1.h (3 + j) = u ∧
      s1.h 1 = (siImage K inner m u q.v).2 := by
    cases inner with
    | pi =>
      refine ⟨_, rfl, h2, rfl, fun z z1 z2 z3 => ?_, ?_, ?_⟩
      · simp [VOp.run, Function.update_of_ne, z1, z3, h3 z z1 z2 z3]
      · simp [VOp.run, Function.update_of_ne, e1]
      · simp [VOp.run, EKit.kit, siImage, h2]
    | ii =>
      have e : (Function.update s.h (3 + j) u) 1 = q.v := by rw [Function.update_of_ne e1.symm, h5]
      refine ⟨{ s with h := Function.update (Function.update s.h (3 + j) u) 1 (K.lin false m u q.v).2 }, ?_, ?_, ?_, ?_, ?_, ?_⟩
      · simp [siKernel, siImage, h2, e]
      · exact h2
      · rfl
      · intro z z1 z2 z3
        simp [Function.update_of_ne, z1, z3, h3 z z1 z2 z3]
      · simp [Function.update_of_ne, e1]
      · simp [siImage]
    | other =>
      refine ⟨_, rfl, h2, rfl, fun z z1 z2 z3 => ?_, ?_, ?_⟩
      · simp [Function.update_of_ne, z3, h3 z z1 z2 z3]
      · simp
      · simp [siImage, Function.update_of_ne e1.symm, h5]
  obtain ⟨s1, k1, k2, k3, k4, k5, k6⟩ := hk
  rw [EProg.run_bind, k1, Option.bind_some, EProg.run_ite]
  unfold siStep
  simp only [← hu]
  split
  · rename_i he
    simp only [EProg.run_pure, Ok_some]
    refine ⟨by simp [siStop, he], ⟨by rw [h1], k2, k4, fun h => absurd h he⟩, by simp [siRec, he, k3]⟩
  · rename_i he
    simp only [EProg.run_bind, run_eNrm2, Option.bind_some, run_eDot, run_eAxpyz', run_eScale, run_eCopy]
    have hr : ∀ (v : S) (s2 : ESt R S M n), s2.hist = s.hist → (siRecord o j i v : EProg R S Unit).run K s2 =
        some ((), { s2 with hist := if j = 1 then ERec o i v s.hist else s.hist }) := by
      intro v s2 hs
      unfold siRecord
      rw [EProg.run_ite]
      split
      · rw [run_eRecord _ _ _ _ _ (by rw [hs]; exact hi), hs]
      · simp [← hs]
    rw [hr _ _ (by simpa using k3)]
    simp only [Option.bind_some, EProg.run_pure, Ok_some]
    refine ⟨?_, ⟨?_, k2, ?_, ?_⟩, ?_⟩
    · simp [siStop, k5, k6, relRes]
      rfl
    · simp [k5, k6, relRes]
      rfl
    · intro z z1 z2 z3
      simp [Function.update_of_ne, z1, z2, z3, k4 z z1 z2 z3]
    · intro _
      simp [Function.update_of_ne, e1.symm, k6, unit, smulV]
      rfl
    · simp [siRec, k5, k6, relRes]
      rfl

/-- the iterations of mode `j` -/
theorem siWhile_ok (K : EKit R S M n) (lt : S → S → Bool) (inner : SiInner) (o : EOpts R S) (m : M) (j : ℕ) (hj : 1 ≤ j)
    (s0 : ESt R S M n) (hsz : o.maxiter < s0.hist.size) (vs : List (Fin n → R))
    (hvs : vs = (List.range (j - 1)).map fun i => s0.h (3 + (i + 1))) (q0 : SiPt R S n) :
    ∀ (k i : ℕ) (st : Err × R × S) (s : ESt R S M n), i + k = o.maxiter →
      SiAt m j s0 ((siStep K inner m vs)^[i] q0) st s → ((siStep K inner m vs)^[i] q0).err = .success →
      s.hist.size = s0.hist.size →
      (o.mem = true → j = 1 → ∀ l, 1 ≤ l → l ≤ i → ((siStep K inner m vs)^[l] q0).err = .success →
        s.hist.get l = ((siStep K inner m vs)^[l] q0).resid) →
      (∀ l, (o.mem = false ∨ j ≠ 1 ∨ l = 0 ∨ i < l) → s.hist.get l = s0.hist.get l) →
      Ok ((eWhile (siBody lt inner o j) k i st).run K s) fun r =>
        r.1.1 = iters (fun i => siStop lt o ((siStep K inner m vs)^[i] q0)) k i ∧
        SiAt m j s0 ((siStep K inner m vs)^[r.1.1] q0) r.1.2 r.2 ∧ r.2.hist.size = s0.hist.size ∧
        (o.mem = true → j = 1 → ∀ l, 1 ≤ l → l ≤ r.1.1 → ((siStep K inner m vs)^[l] q0).err = .success →
          r.2.hist.get l = ((siStep K inner m vs)^[l] q0).resid) ∧
        (∀ l, (o.mem = false ∨ j ≠ 1 ∨ l = 0 ∨ r.1.1 < l) → r.2.hist.get l = s0.hist.get l) := by
  intro k
  induction k with
  | zero =>
    intro i st s hi hA he h2 h3 h4
    simp only [eWhile, EProg.run_pure, Ok_some]
    exact ⟨rfl, hA, h2, h3, h4⟩
  | succ k ih =>
    intro i st s hi hA he h2 h3 h4
    simp only [eWhile, EProg.run_bind, Ok_obind]
    refine (siBody_ok K lt inner o m j (i + 1) hj s0 _ st s hA he (by omega) vs hvs).mono ?_
    rintro ⟨⟨b, st'⟩, s'⟩ ⟨e1, e2, e3⟩
    simp only at e1 e2 e3 ⊢
    rw [← Function.iterate_succ_apply' (siStep K inner m vs) i q0] at e1 e2 e3
    have g : s'.hist.size = s0.hist.size ∧
        (o.mem = true → j = 1 → ∀ l, 1 ≤ l → l ≤ i + 1 → ((siStep K inner m vs)^[l] q0).err = .success →
          s'.hist.get l = ((siStep K inner m vs)^[l] q0).resid) ∧
        (∀ l, (o.mem = false ∨ j ≠ 1 ∨ l = 0 ∨ i + 1 < l) → s'.hist.get l = s0.hist.get l) := by
      rw [e3]
      unfold siRec
      split
      · rename_i hc
        unfold ERec
        split
        · refine ⟨by simpa using h2, fun hm hj l l1 l2 le => ?_, fun l hl => ?_⟩
          · by_cases hl : l = i + 1
            · rw [hl, Arr.set_get_self]
            · rw [Arr.set_get_ne _ _ (by omega)]; exact h3 hm hj l l1 (by omega) le
          · rename_i hm
            rw [Arr.set_get_ne _ _ (by
              rcases hl with h | h | h | h
              · rw [hm] at h; simp at h
              · exact absurd hc.2 h
              · omega
              · omega)]
            exact h4 l (by
              rcases hl with h | h | h | h
              · exact Or.inl h
              · exact Or.inr (Or.inl h)
              · exact Or.inr (Or.inr (Or.inl h))
              · exact Or.inr (Or.inr (Or.inr (by omega))))
        · rename_i hm
          exact ⟨h2, fun h => absurd h hm, fun l hl => h4 l (Or.inl (by simpa using hm))⟩
      · rename_i hc
        refine ⟨h2, fun hm hj l l1 l2 le => ?_, fun l hl => h4 l (by
          rcases hl with h | h | h | h
          · exact Or.inl h
          · exact Or.inr (Or.inl h)
          · exact Or.inr (Or.inr (Or.inl h))
          · exact Or.inr (Or.inr (Or.inr (by omega))))⟩
        by_cases hl : l = i + 1
        · rw [hl] at le; exact absurd ⟨le, hj⟩ hc
        · exact h3 hm hj l l1 (by omega) le
    rw [EProg.run_ite]
    unfold iters
    cases b with
    | true =>
      simp only [if_true, EProg.run_pure, Ok_some]
      rw [← e1]
      exact ⟨by simp, e2, g⟩
    | false =>
      simp only [Bool.false_eq_true, if_false]
      refine (ih (i + 1) st' s' (by omega) e2 ?_ g.1 g.2.1 g.2.2).mono ?_
      · have := e1.symm
        simp only [siStop, Bool.or_eq_false_iff, decide_eq_false_iff_not, not_not] at this
        exact this.1
      · rintro r ⟨a1, a2⟩
        refine ⟨?_, a2⟩
        rw [a1, ← e1]; simp

/-- mode `j` -/
theorem siMode_ok (K : EKit R S M n) (lt : S → S → Bool) (inner : SiInner) (perr : ℕ → Err) (ss : ℕ) (o : EOpts R S)
    (j : ℕ) (hj : 1 ≤ j) (hjs : j ≤ ss) (s0 : ESt R S M n) (hsz : o.maxiter < s0.hist.size) (vs : List (Fin n → R))
    (hvs : vs = (List.range (j - 1)).map fun i => s0.h (3 + (i + 1))) (q0 : SiPt R S n) (he : q0.err = .success)
    (hv : s0.h 1 = q0.v) (hp : siPrecon inner perr j = .success) :
    Ok ((siMode lt inner perr ss o j (q0.theta, q0.resid)).run K s0) fun r =>
      r.1 = ((siLast K lt inner o s0.m vs q0).err, siIters K lt inner o s0.m vs q0, (siLast K lt inner o s0.m vs q0).theta,
        (siLast K lt inner o s0.m vs q0).resid) ∧ r.2.m = s0.m ∧
      (∀ z, z ≠ 1 → z ≠ 2 → z ≠ 3 + j → z ≠ ss + 4 + j → r.2.h z = s0.h z) ∧
      ((siLast K lt inner o s0.m vs q0).err = .success → r.2.h 1 = (siLast K lt inner o s0.m vs q0).v ∧
        r.2.h (3 + j) = (siLast K lt inner o s0.m vs q0).v ∧ r.2.h (ss + 4 + j) = (siLast K lt inner o s0.m vs q0).v) ∧
      r.2.hist.size = s0.hist.size ∧
      (o.mem = true → j = 1 → ∀ l, 1 ≤ l → l ≤ siIters K lt inner o s0.m vs q0 →
        ((siStep K inner s0.m vs)^[l] q0).err = .success →
          r.2.hist.get l = ((siStep K inner s0.m vs)^[l] q0).resid) ∧
      (∀ l, (o.mem = false ∨ j ≠ 1 ∨ l = 0 ∨ siIters K lt inner o s0.m vs q0 < l) → r.2.hist.get l = s0.hist.get l) := by
  unfold siMode
  simp only [EProg.run_bind, run_eCopy, Option.bind_some, hp, ne_eq, not_true_eq_false, if_false, Ok_obind]
  obtain ⟨s1, hs1⟩ : ∃ s1 : ESt R S M n, s1 = { s0 with h := Function.update s0.h (3 + j) (s0.h 1) } := ⟨_, rfl⟩
  rw [← hs1]
  have hm1 : s1.m = s0.m := by rw [hs1]
  have hh1 : s1.hist = s0.hist := by rw [hs1]
  have hf1 : ∀ z, z ≠ 3 + j → s1.h z = s0.h z := fun z hz => by rw [hs1]; simp [Function.update_of_ne hz]
  have hvs1 : vs = (List.range (j - 1)).map fun i => s1.h (3 + (i + 1)) := by
    rw [hvs]
    refine List.map_congr_left fun k hk => ?_
    rw [List.mem_range] at hk
    exact (hf1 _ (by omega)).symm
  refine (siWhile_ok K lt inner o s0.m j hj s1 (by rw [hh1]; exact hsz) vs hvs1 q0 o.maxiter 0 _ s1 (by omega)
    ⟨by simp [he], hm1, fun _ _ _ _ => rfl, fun _ => ⟨by rw [hf1 1 (by omega)]; exact hv, by rw [hs1]; simpa using hv⟩⟩ he rfl
    (fun _ _ l _ _ => by omega) (fun _ _ => rfl)).mono ?_
  rintro ⟨⟨k, st⟩, s2⟩ ⟨a1, a2, a3, a4, a5⟩
  simp only at a1 a2 a3 a4 a5 ⊢
  have hk : k = siIters K lt inner o s0.m vs q0 := a1
  have hl : (siStep K inner s0.m vs)^[k] q0 = siLast K lt inner o s0.m vs q0 := by rw [hk]; rfl
  rw [hl] at a2
  rw [hh1] at a3 a5
  rw [EProg.run_ite, a2.st]
  simp only
  split
  · rename_i hc
    simp only [EProg.run_pure, Ok_some]
    refine ⟨by rw [hk], a2.mat, fun z z1 z2 z3 z4 => ?_, fun h => absurd h hc, a3, ?_, ?_⟩
    · rw [a2.frame z z1 z2 z3, hf1 z z3]
    · rw [← hk]; exact a4
    · rw [← hk]; exact a5
  · rename_i hc
    rw [not_not] at hc
    simp only [EProg.run_bind, run_eCopy, Option.bind_some, EProg.run_pure, Ok_some]
    have e3 : ss + 4 + j ≠ 3 + j := by omega
    refine ⟨by rw [hk, hc], a2.mat, fun z z1 z2 z3 z4 => ?_, fun _ => ⟨?_, ?_, ?_⟩, a3, ?_, ?_⟩
    · rw [Function.update_of_ne z4, a2.frame z z1 z2 z3, hf1 z z3]
    · rw [Function.update_of_ne (by omega)]; exact (a2.vec hc).1
    · rw [Function.update_of_ne (by omega)]; exact (a2.vec hc).2
    · rw [Function.update_self]; exact (a2.vec hc).2
    · rw [← hk]; exact a4
    · rw [← hk]; exact a5

end Lis
