import Verif.Model.Idrs
import Verif.Lemmas.SolverLast
import Verif.Lemmas.ArrayDef
import Verif.Props.SolverStatus
import Verif.Props.SolverResidual

/-!
# C25: lis_idrs, lis_idr1
-/

namespace Lis
variable {R S : Type} {n : ℕ}

/-- index arithmetic of the work vectors -/
macro "ididx" : tactic => `(tactic| (try simp only [idX, idP, idR, wk, hX, hB]) <;> omega)

section status
variable [Zero R] [One R] [Add R] [Neg R] [Mul R] [Div R] [Sub R] [Star R] [DecidableEq R] [RealOps S]

omit [Zero R] [One R] [Div R] [Sub R] [DecidableEq R] in
theorem idrsOrth_ok (K : Kit R S n) (toR : S → R) (s : ℕ) (P : ℕ → ℕ) (st : MSt R S n) :
    Ok ((idrsOrth toR s P).run K st) fun r => r.2.hist = st.hist ∧
      ∀ q, (∀ j, j < s → q ≠ P j) → r.2.h q = st.h q := by
  unfold idrsOrth
  refine Ok_pfor (fun _ _ s' => s'.hist = st.hist ∧ ∀ q, (∀ j, j < s → q ≠ P j) → s'.h q = st.h q) s 0 () st
    ⟨rfl, fun _ _ => rfl⟩ ?_ fun _ _ h => h
  rintro j - s' - hj ⟨hh, hk⟩
  simp only [vNrm2, vScale]
  refine Ok_norm fun v _ => Ok_vop fun w _ => ?_
  refine Ok_pfor (fun _ _ s' => s'.hist = st.hist ∧ ∀ q, (∀ j, j < s → q ≠ P j) → s'.h q = st.h q) _ _ () _ ⟨hh, ?_⟩ ?_
    fun _ _ h => h
  · intro q hq
    simp only [VOp.dst]
    rw [Function.update_of_ne (hq j (by omega)), hk q hq]
  · rintro i - s2 h1 h2 ⟨hh, hk⟩
    simp only [vDot, vAxpy]
    refine Ok_red fun d _ => Ok_vop1 fun w _ => ⟨hh, fun q hq => ?_⟩
    simp only [VOp.dst]
    rw [Function.update_of_ne (hq i (by omega)), hk q hq]

omit [Zero R] [One R] [Neg R] [Div R] [Sub R] [DecidableEq R] [RealOps S] in
theorem Ok_idrsDots {K : Kit R S n} {α : Type} {s v base : ℕ} {a : Arr R} {f : Arr R → Prog R S α} {st : MSt R S n}
    {Q : α × MSt R S n → Prop} (ha : base + s ≤ a.size)
    (h : ∀ a' : Arr R, a'.size = a.size → Ok ((f a').run K st) Q) : Ok ((idrsDots s v base a >>= f).run K st) Q := by
  refine Ok_pbind ?_
  unfold idrsDots
  refine Ok_pfor (fun _ a' s' => a'.size = a.size ∧ s' = st) s 0 a st ⟨rfl, rfl⟩ ?_ ?_
  · rintro j a' s' - hj ⟨h1, rfl⟩
    simp only [vDot]
    refine Ok_red fun d _ => ?_
    have : (aWr a' (base + j) d : Prog R S (Arr R)) = .ret (a'.set (base + j) d) := by
      have : base + j < a'.size := by omega
      simp [aWr, Arr.wr, this, Prog.ofOption]
    rw [this]
    exact ⟨_, rfl, by simpa using h1, rfl⟩
  · rintro a' s' ⟨h1, rfl⟩
    exact h a' h1

/-- how the new direction `u` and the change of the residual `z` are made, from the first `k` directions -/
def IdDir (K : Kit R S n) (s k : ℕ) (h : MHeap R n) (u z : Fin n → R) : Prop :=
  (∃ om d, (u = fun i => om * d i) ∧ z = fun i => -om * K.mv d i) ∨
  (z = fun i => -1 * K.mv u i) ∨
  ∃ om d, ∃ cl : List R, cl.length ≤ k ∧
    (u = fun i => cl.zipIdx.foldl (fun t p => t + h (idX p.2) i * -p.1) (om * d i)) ∧
    (z = fun i => cl.zipIdx.foldl (fun t p => t + h (idR s p.2) i * -p.1) (-om * K.mv d i))

/-- the vectors after a step that renewed `dX[old]`, `dR[old]` -/
structure IdStep (K : Kit R S n) (s k old : ℕ) (h h' : MHeap R n) : Prop where
  x : h' hX = fun i => h hX i + 1 * h' (idX old) i
  r : h' (wk 0) = fun i => h (wk 0) i + 1 * h' (idR s old) i
  dir : IdDir K s k h (h' (idX old)) (h' (idR s old))
  rest : ∀ q, q ≠ hX → q ≠ wk 0 → q ≠ wk 1 → q ≠ wk 2 → q ≠ wk 3 → q ≠ idX old → q ≠ idR s old → h' q = h q

/-- result of a step that recorded iteration `i` -/
def IdPost (K : Kit R S n) (o : Opts R S) (t : Tols S) (s kk old i : ℕ) (st : MSt R S n) {σ : Type} (J : σ → Prop) :
    ((σ × S) ⊕ Out S) × MSt R S n → Prop
  | (.inl p, s') => IdStep K s kk old st.h s'.h ∧ p.2 = resOf K o.conv t.bnrm (s'.h (wk 0)) ∧ ¬ p.2 ≤ t.tol ∧
      Recorded o i p.2 st.hist s'.hist ∧ J p.1
  | (.inr out, s') => IdStep K s kk old st.h s'.h ∧ out.resid = resOf K o.conv t.bnrm (s'.h (wk 0)) ∧ out.resid ≤ t.tol ∧
      Recorded o i out.resid st.hist s'.hist ∧ out = ⟨.success, i, out.resid⟩

theorem idrsInit_ok (K : Kit R S n) (s : ℕ) (o : Opts R S) (t : Tols S) (k : ℕ) (p : (Arr R × R) × S) (st : MSt R S n)
    (hk : k < s) (hM : p.1.1.size = s * s) (hi : k + 1 < st.hist.size) :
    Ok ((idrsInit s o t k p).run K st) (IdPost K o t s 0 k (k + 1) st fun q => q.1.size = s * s) := by
  unfold idrsInit
  rw [dif_pos hk]
  simp only [mPsolve, mMatvec, vScale, vAxpy]
  refine Ok_vop fun w1 e1 => Ok_vop fun w2 e2 => ?_
  simp only [vDot]
  refine Ok_red fun h _ => Ok_red fun om _ => ?_
  refine Ok_vop fun w3 e3 => Ok_vop fun w4 e4 => Ok_vop fun w5 e5 => Ok_vop fun w6 e6 => ?_
  simp only [VOp.dst, VOp.val] at *
  have hstep : IdStep K s 0 k st.h (Function.update (Function.update (Function.update (Function.update
      (Function.update (Function.update st.h (idX k) w1) (idR s k) w2) (idX k) w3) (idR s k) w4) hX w5) (wk 0) w6) := by
    have n1 : idX k ≠ idR s k := by ididx
    have n2 : idX k ≠ wk 0 := by ididx
    have n3 : idR s k ≠ wk 0 := by ididx
    have n4 : idX k ≠ hX := by ididx
    have n5 : idR s k ≠ hX := by ididx
    have n6 : wk 0 ≠ hX := by decide
    refine ⟨?_, ?_, .inl ⟨om / h, w1, ?_, ?_⟩, ?_⟩
    all_goals simp only [Function.update_self, Function.update_of_ne, ne_eq, n1, n2, n3, n4, n5, n6, n1.symm, n2.symm, n3.symm, n4.symm, n5.symm, n6.symm, not_false_eq_true] at *
    · exact e5
    · exact e6
    · exact e3
    · rw [e4, e2]
    · intro q q1 q2 _ _ _ q6 q7
      rw [Function.update_of_ne q2, Function.update_of_ne q1, Function.update_of_ne q7, Function.update_of_ne q6,
        Function.update_of_ne q7, Function.update_of_ne q6]
  refine Ok_checkResid hi fun v a hv hrec => Ok_pif (fun hle => Ok_ret ?_) fun hle => ?_
  · exact ⟨hstep, hv, hle, hrec, rfl⟩
  · refine Ok_idrsDots ?_ fun a' ha' => Ok_ret ?_
    · rw [hM]
      have : (k + 1) * s ≤ s * s := Nat.mul_le_mul_right s hk
      rw [Nat.add_mul, Nat.one_mul] at this
      exact this
    · exact ⟨hstep, hv, hle, hrec, ha'.trans hM⟩

omit [Zero R] [One R] [Neg R] [Div R] [Sub R] [DecidableEq R] [RealOps S] in
theorem Ok_pfor_axpys {K : Kit R S n} {α : Type} (c : Arr R) (s : ℕ) (g : ℕ → R → R) (z : ℕ → ℕ) (v : ℕ)
    {f : Unit → Prog R S α} {st : MSt R S n} {Q : α × MSt R S n → Prop} (hc : s ≤ c.size)
    (h : ∀ w, Ok ((f ()).run K ⟨Function.update st.h v w, st.hist⟩) Q) :
    Ok ((pfor (fun j _ => do
      let cj ← aRd c j
      vAxpy (g j cj) (z j) v) s 0 () >>= f).run K st) Q := by
  refine Ok_pbind ?_
  refine Ok_pfor (fun _ _ s' => s'.hist = st.hist ∧ ∃ w, s'.h = Function.update st.h v w) s 0 () st
    ⟨rfl, st.h v, by simp⟩ ?_ ?_
  · rintro j - s' - hj ⟨hh, w, hw⟩
    refine Ok_aRd (by omega) ?_
    simp only [vAxpy]
    refine Ok_vop1 fun w2 _ => ⟨hh, w2, ?_⟩
    simp only [VOp.dst]
    rw [hw, Function.update_idem]
  · rintro - ⟨h', a⟩ ⟨hh, w, hw⟩
    simp only at hh hw ⊢
    subst hh hw
    exact h w

omit [Zero R] [One R] [Neg R] [Div R] [Sub R] [Star R] [DecidableEq R] [RealOps S] in
theorem comb_congr {h h' : MHeap R n} {g : ℕ → ℕ} {f : R → R} {l : List (R × ℕ)} (i : Fin n)
    (he : ∀ p ∈ l, h' (g p.2) = h (g p.2)) (a : R) :
    (l.map fun p => (f p.1, g p.2)).foldl (fun (t : R) (p : R × ℕ) => t + h' p.2 i * p.1) a =
      l.foldl (fun (t : R) (p : R × ℕ) => t + h (g p.2) i * f p.1) a := by
  rw [List.foldl_map]
  refine List.foldl_ext _ _ _ fun t p hp => ?_
  rw [he p hp]

/-- what `idrsDir` leaves behind -/
theorem Ok_idrsDir {K : Kit R S n} {α : Type} {s iter old : ℕ} {om : R} (hs : 1 ≤ s) {cl : List R}
    {f : R → Prog R S α} {st : MSt R S n} {Q : α × MSt R S n → Prop} (ho : old < s) (hc : cl.length ≤ s)
    (h : ∀ om' h', IdDir K s s st.h (h' (idX old)) (h' (idR s old)) →
      (∀ q, q ≠ wk 1 → q ≠ wk 2 → q ≠ wk 3 → q ≠ idX old → q ≠ idR s old → h' q = st.h q) →
      Ok ((f om').run K ⟨h', st.hist⟩) Q) :
    Ok ((idrsDir s iter om old hs cl >>= f).run K st) Q := by
  have hlen : ∀ p ∈ cl.zipIdx, p.2 < s := by
    rintro ⟨a, j⟩ hp
    have := List.snd_lt_of_mem_zipIdx hp
    simp only at this ⊢
    omega
  have n1 : ∀ j, idX j ≠ wk 1 := fun j => by ididx
  have n3 : ∀ j, idX j ≠ wk 3 := fun j => by ididx
  have m1 : ∀ j, idR s j ≠ wk 1 := fun j => by ididx
  have m3 : ∀ j, idR s j ≠ wk 3 := fun j => by ididx
  have nm : ∀ j k, j < s → idX j ≠ idR s k := fun j k h => by ididx
  refine Ok_pbind ?_
  unfold idrsDir
  simp only [mPsolve, mMatvec, vDot, vComb, vScale]
  refine Ok_pif (fun _ => ?_) fun _ => ?_
  · refine Ok_vop fun w1 e1 => Ok_vop fun w2 e2 => Ok_red fun hh _ => Ok_red fun om' _ => Ok_vop fun w3 e3 =>
      Ok_vop fun w4 e4 => Ok_ret ?_
    simp only [VOp.dst, VOp.val] at *
    refine h _ _ (.inr (.inr ⟨om' / hh, w1, cl, hc, ?_, ?_⟩)) ?_
    · rw [Function.update_of_ne (nm old old ho), Function.update_self, e3]
      funext i
      rw [comb_congr (h := st.h) i fun p hp => by
        rw [Function.update_of_ne (n1 _), Function.update_of_ne (n3 _)]]
      rw [Function.update_of_ne (by decide), Function.update_self]
    · rw [Function.update_self, e4]
      funext i
      rw [comb_congr (h := st.h) (g := idR s) i fun p hp => by
        rw [Function.update_of_ne (nm old _ ho).symm, Function.update_of_ne (m1 _), Function.update_of_ne (m3 _)]]
      rw [Function.update_of_ne (n1 old).symm, Function.update_self, e2, Function.update_self]
    · intro q q1 q2 q3 q4 q5
      rw [Function.update_of_ne q5, Function.update_of_ne q4, Function.update_of_ne q1, Function.update_of_ne q3]
  · refine Ok_vop fun w1 e1 => Ok_vop fun w2 e2 => Ok_vop fun w3 e3 => Ok_vop fun w4 e4 => Ok_ret ?_
    simp only [VOp.dst, VOp.val] at *
    refine h _ _ (.inr (.inl ?_)) ?_
    · rw [Function.update_self, e4]
      funext i
      rw [Function.update_self, e3, Function.update_self, Function.update_of_ne (nm old old ho),
        Function.update_of_ne (nm old old ho), Function.update_self]
    · intro q q1 q2 q3 q4 q5
      rw [Function.update_of_ne q5, Function.update_of_ne q5, Function.update_of_ne q4, Function.update_of_ne q3]

/-- sizes of the local arrays -/
structure IdrsSt.Good (s : ℕ) (p : IdrsSt R) : Prop where
  M : p.M.size = s * s
  m : p.m.size = s
  c : p.c.size = s
  MM : p.MM.size = s * s
  old : p.oldest < s

theorem idrsBody_ok (K : Kit R S n) (s : ℕ) (hs : 1 ≤ s) (o : Opts R S) (t : Tols S) (iter : ℕ) (p : IdrsSt R × S)
    (st : MSt R S n) (hg : p.1.Good s) (hi : iter + 1 < st.hist.size) :
    Ok ((idrsBody s o t iter p).run K st) (IdPost K o t s s p.1.oldest (iter + 1) st fun q => q.Good s) := by
  obtain ⟨hM, hm, hc, hMM, ho⟩ := hg
  unfold idrsBody
  rw [dif_pos hs]
  obtain ⟨⟨c, MM⟩, hcm, hc1, hc2⟩ := arraySolve_defined s p.1.M p.1.m p.1.c p.1.MM (by omega) (by omega) (by omega) (by omega)
  simp only at hc1 hc2
  rw [hcm]
  refine Ok_pbind ⟨_, rfl, ?_⟩
  simp only [vCopy]
  refine Ok_vop fun w1 _ => ?_
  have ecl : (aList c s : Prog R S (List R)) = pure ((List.range s).map c.get) := by
    unfold aList; rw [if_neg (by omega)]
  rw [ecl]
  refine Ok_pbind (Ok_ret ?_)
  simp only
  refine Ok_pfor_axpys c s (fun _ x => -x) (idR s) (wk 2) (by omega) fun w2 => ?_
  refine Ok_idrsDir hs ho (by simp) fun om' h' hd hk => ?_
  simp only [vAxpy]
  refine Ok_vop fun w3 e3 => Ok_vop fun w4 e4 => ?_
  simp only [VOp.dst, VOp.val] at *
  have n1 : idX p.1.oldest ≠ wk 0 := by ididx
  have n2 : idX p.1.oldest ≠ hX := by ididx
  have m1 : idR s p.1.oldest ≠ wk 0 := by ididx
  have m2 : idR s p.1.oldest ≠ hX := by ididx
  have hk' : ∀ q, q ≠ wk 1 → q ≠ wk 2 → q ≠ wk 3 → q ≠ idX p.1.oldest → q ≠ idR s p.1.oldest → h' q = st.h q := by
    intro q q1 q2 q3 q4 q5
    rw [hk q q1 q2 q3 q4 q5, Function.update_of_ne q2, Function.update_of_ne q2]
  have hstep : IdStep K s s p.1.oldest st.h (Function.update (Function.update h' (wk 0) w3) hX w4) := by
    refine ⟨?_, ?_, ?_, ?_⟩
    · rw [Function.update_self, e4, Function.update_of_ne n2]
      funext i
      rw [Function.update_of_ne (by decide), Function.update_of_ne n1,
        hk' hX (by decide) (by decide) (by decide) n2.symm m2.symm]
    · rw [Function.update_of_ne (by decide), Function.update_self, e3, Function.update_of_ne m2, Function.update_of_ne m1,
        hk' (wk 0) (by decide) (by decide) (by decide) n1.symm m1.symm]
    · rw [Function.update_of_ne n2, Function.update_of_ne n1, Function.update_of_ne m2, Function.update_of_ne m1]
      have e : ∀ j, Function.update (Function.update st.h (wk 2) w1) (wk 2) w2 (idX j) = st.h (idX j) := fun j => by
        rw [Function.update_of_ne (by ididx), Function.update_of_ne (by ididx)]
      have e' : ∀ j, Function.update (Function.update st.h (wk 2) w1) (wk 2) w2 (idR s j) = st.h (idR s j) := fun j => by
        rw [Function.update_of_ne (by ididx), Function.update_of_ne (by ididx)]
      unfold IdDir at hd ⊢
      simp only [e, e'] at hd
      exact hd
    · intro q q1 q2 q3 q4 q5 q6 q7
      rw [Function.update_of_ne q1, Function.update_of_ne q2, hk' q q3 q4 q5 q6 q7]
  refine Ok_checkResid hi fun v a hv hrec => Ok_pif (fun hle => Ok_ret ?_) fun hle => Ok_pbind ?_
  · exact ⟨hstep, hv, hle, hrec, rfl⟩
  · refine Ok_pfor (fun _ (q : Arr R × Arr R) s' => q.1.size = s ∧ q.2.size = s * s ∧
        s' = ⟨Function.update (Function.update h' (wk 0) w3) hX w4, a⟩) s 0 _ _ ⟨hm, hM, rfl⟩ ?_ ?_
    · rintro i ⟨m, M⟩ s' - hi ⟨h1, h2, rfl⟩
      simp only at h1 h2 ⊢
      simp only [vDot]
      have : (p.1.oldest + 1) * s ≤ s * s := Nat.mul_le_mul_right s ho
      rw [Nat.add_mul, Nat.one_mul] at this
      exact Ok_red fun h _ => Ok_aRd (by omega) (Ok_aWr (by omega) (Ok_aWr (by omega) (Ok_ret ⟨h1, h2, rfl⟩)))
    · rintro ⟨m, M⟩ s' ⟨h1, h2, rfl⟩
      refine Ok_ret ⟨hstep, hv, hle, hrec, ⟨h2, h1, hc1.trans hc, hc2.trans hMM, ?_⟩⟩
      simp only
      split <;> omega

/-- generating `P` changes `P` only -/
theorem Ok_idrsSetup {K : Kit R S n} {α : Type} {s : ℕ} {toR : S → R} {rnd : ℕ → ℕ → R} {f : Prog R S α}
    {st : MSt R S n} {Q : α × MSt R S n → Prop}
    (h : ∀ h', (∀ q, (∀ j, j < s → q ≠ idP s j) → h' q = st.h q) → Ok (f.run K ⟨h', st.hist⟩) Q) :
    Ok ((do
      pfor (fun k _ => vFill (rnd k) (idP s k)) s 0 ()
      idrsOrth toR s (idP s)
      f).run K st) Q := by
  refine Ok_pbind ?_
  refine Ok_pfor (fun _ _ s' => s'.hist = st.hist ∧ ∀ q, (∀ j, j < s → q ≠ idP s j) → s'.h q = st.h q) s 0 () st
    ⟨rfl, fun _ _ => rfl⟩ ?_ ?_
  · rintro j - s' - hj ⟨hh, hk⟩
    simp only [vFill]
    refine Ok_vop1 fun w _ => ⟨hh, fun q hq => ?_⟩
    simp only [VOp.dst]
    rw [Function.update_of_ne (hq j (by omega)), hk q hq]
  · rintro _ s1 ⟨h1, h2⟩
    refine Ok_pbind ((idrsOrth_ok K toR s (idP s) s1).mono ?_)
    rintro ⟨_, ⟨h', a⟩⟩ ⟨h3, h4⟩
    simp only at h3 h4 ⊢
    subst h3
    rw [h1]
    exact h h' fun q hq => (h4 q hq).trans (h2 q hq)

omit [Zero R] [Div R] [Sub R] [Star R] [DecidableEq R] [RealOps S] in
theorem IdStep.b {K : Kit R S n} {s k old : ℕ} {h h' : MHeap R n} (hst : IdStep K s k old h h') : h' hB = h hB :=
  hst.rest hB (by decide) (by decide) (by decide) (by decide) (by decide) (by ididx) (by ididx)

/-- **C25: status contract of `lis_idrs`** (any `s ≥ 1`, any contents of the fresh arrays, any arithmetic), provided the
residual history has room for the iterations made: up to `max s (maxiter+1)` of them. -/
theorem lisIdrs_status (s : ℕ) (hs : 1 ≤ s) (J : ℕ → R) (junk : S) (jom : R) (toR : S → R) (rnd : ℕ → ℕ → R)
    (K : Kit R S n) (o : Opts R S) (st : MSt R S n) (hsz : max s (o.maxiter + 1) < st.hist.size) :
    Ok ((lisIdrs s J junk jom toR rnd o).run K st) fun r => ContractLast K o (max s (o.maxiter + 1)) st r.2 r.1 := by
  unfold lisIdrs
  refine Ok_solverLast (K := K) (o := o) (s := st) (by decide) fun hinit => ?_
  refine Ok_idrsSetup fun h' hh' => ?_
  simp only at hh'
  have hb : h' hB = st.h hB := by
    rw [hh' hB (fun j _ => by ididx), Function.update_of_ne (by decide)]
  refine Ok_pbind (Ok_forIter (lo := 0) (fun i (p : (Arr R × R) × S) s' => p.1.1.size = s * s ∧
    LInv o (tolOf K o st.h) (st.h hB) st.hist i p.2 s') s 0 _ _ ⟨rfl, ⟨hb, rfl, fun _ _ => rfl, fun _ j h1 h2 => by omega, by omega⟩⟩ ?_ ?_)
  · rintro k p s' - hk ⟨hM, hI⟩
    refine (idrsInit_ok K s o _ k p s' (by omega) hM (by rw [hI.size]; omega)).mono ?_
    rintro ⟨q | out, s2⟩ h
    · exact ⟨h.2.2.2.2, hI.step h.1.b h.2.2.1 h.2.2.2.1⟩
    · refine Ok_ret ?_
      obtain ⟨h1, -, h3, h4, h5⟩ := h
      rw [h5]
      exact hI.success hinit h1.b h3 h4 (by omega)
  · rintro p s' ⟨hM, hI⟩
    rw [Nat.zero_add] at hI
    refine Ok_idrsDots (by simp [Arr.malloc]) fun m hm => Ok_pbind ?_
    refine Ok_forIter (lo := s) (fun i (p : IdrsSt R × S) s' => p.1.Good s ∧
      LInv o (tolOf K o st.h) (st.h hB) st.hist i p.2 s') _ s _ _ ⟨⟨hM, hm, rfl, rfl, hs⟩, hI⟩ ?_ ?_
    · rintro k p s' - hk ⟨hg, hI⟩
      refine (idrsBody_ok K s hs o _ k p s' hg (by rw [hI.size]; omega)).mono ?_
      rintro ⟨q | out, s2⟩ h
      · exact ⟨h.2.2.2.2, hI.step h.1.b h.2.2.1 h.2.2.2.1⟩
      · refine Ok_ret ?_
        obtain ⟨h1, -, h3, h4, h5⟩ := h
        rw [h5]
        exact hI.success hinit h1.b h3 h4 (by omega)
    · rintro p s' ⟨-, hI⟩
      rw [show s + (o.maxiter + 1 - s) = max s (o.maxiter + 1) by omega] at hI
      exact Ok_ret (hI.maxiter hinit (by omega))

end status

section residual
variable [CommRing R] [Div R] [Star R] [DecidableEq R] [RealOps S]

/-- `r = b - A x` and `dR[j] = - A dX[j]` for the first `k` directions -/
def IdInv (K : Kit R S n) (s k : ℕ) (h : MHeap R n) : Prop :=
  HoldsRes K (wk 0) h ∧ ∀ j, j < k → ∀ i, h (idR s j) i = - K.mv (h (idX j)) i

omit [Div R] [DecidableEq R] [RealOps S] [Star R] in
theorem foldl_neg {ι : Type} (l : List ι) (f g : ι → R) (hfg : ∀ p ∈ l, g p = - f p) :
    ∀ a : R, l.foldl (fun t p => t + g p) (-a) = - l.foldl (fun t p => t + f p) a := by
  induction l with
  | nil => intro a; rfl
  | cons p l ih =>
    intro a
    simp only [List.foldl_cons]
    rw [hfg p (by simp), ← neg_add, ih fun q hq => hfg q (by simp [hq])]

theorem IdDir.neg {K : Kit R S n} (hlin : K.Linear) {s k : ℕ} {h : MHeap R n} {u z : Fin n → R}
    (hd : IdDir K s k h u z) (hj : ∀ j, j < k → ∀ i, h (idR s j) i = - K.mv (h (idX j)) i) (i : Fin n) :
    z i = - K.mv u i := by
  rcases hd with ⟨om, d, rfl, rfl⟩ | rfl | ⟨om, d, cl, hcl, rfl, rfl⟩
  · rw [hlin.smul]; ring
  · ring
  · have := hlin.comb h (cl.zipIdx.map fun p => (-p.1, idX p.2)) i fun i => om * d i
    simp only [List.foldl_map] at this
    rw [this, hlin.smul]
    beta_reduce
    rw [neg_mul]
    refine foldl_neg _ _ _ (fun p hp => ?_) _
    have := List.snd_lt_of_mem_zipIdx hp
    rw [hj p.2 (by omega) i]
    ring

omit [Div R] [Star R] [DecidableEq R] [RealOps S] in
theorem IdStep.inv {K : Kit R S n} (hlin : K.Linear) {s k kk old : ℕ} {h h' : MHeap R n} (hst : IdStep K s kk old h h')
    (ho : old < s) (hr : HoldsRes K (wk 0) h) (hk : k ≤ s)
    (hj : ∀ j, j < k → j ≠ old → ∀ i, h (idR s j) i = - K.mv (h (idX j)) i)
    (hn : ∀ i, h' (idR s old) i = - K.mv (h' (idX old)) i) (hok : old ≤ k) :
    IdInv K s (max k (old + 1)) h' := by
  refine ⟨fun i => ?_, fun j hjk i => ?_⟩
  · rw [hst.r, hst.b]
    beta_reduce
    rw [hst.x]
    have := congrFun (hlin 1 (h hX) (h' (idX old))) i
    rw [this, hr i, hn i]
    ring
  · by_cases e : j = old
    · subst e; exact hn i
    · rw [hst.rest (idR s j) (by ididx) (by ididx) (by ididx) (by ididx) (by ididx) (by ididx) (by ididx),
        hst.rest (idX j) (by ididx) (by ididx) (by ididx) (by ididx) (by ididx) (by ididx) (by ididx)]
      exact hj j (by omega) e i

/-- **C25: `lis_idrs` reports the residual of the `x` it returns** -/
theorem lisIdrs_residual (s : ℕ) (hs : 1 ≤ s) (J : ℕ → R) (junk : S) (jom : R) (toR : S → R) (rnd : ℕ → ℕ → R)
    (K : Kit R S n) (hlin : K.Linear) (o : Opts R S) (st : MSt R S n) (hsz : max s (o.maxiter + 1) < st.hist.size)
    (hz : o.initZero → st.h hX = 0) :
    Ok ((lisIdrs s J junk jom toR rnd o).run K st) fun r => ReportsTrue K o junk st r.2 r.1 := by
  unfold lisIdrs
  refine Ok_solverRes (K := K) (o := o) (s := st) hlin (by decide) hz fun w hw => ?_
  refine Ok_idrsSetup fun h' hh' => ?_
  simp only at hh'
  have hr0 : HoldsRes K (wk 0) h' := by
    intro j
    rw [hh' (wk 0) (fun j _ => by ididx), hh' hB (fun j _ => by ididx), hh' hX (fun j _ => by ididx),
      Function.update_self, Function.update_of_ne (by decide), Function.update_of_ne (by decide), hw]
  have hv : ∀ {h : MHeap R n} {v : S}, v = resOf K o.conv (bnrmOf K o st.h) (h (wk 0)) → HoldsRes K (wk 0) h →
      v = resOf K o.conv (bnrmOf K o st.h) (trueRes K h) := fun h1 h2 => resOf_of h1 fun j => h2 j
  refine Ok_pbind (Ok_forIter (lo := 0) (fun i (p : (Arr R × R) × S) s' => p.1.1.size = s * s ∧
    s'.hist.size = st.hist.size ∧ IdInv K s i s'.h ∧
    (1 ≤ i → p.2 = resOf K o.conv (bnrmOf K o st.h) (trueRes K s'.h))) s 0 _ _
      ⟨rfl, rfl, ⟨hr0, fun j h => by omega⟩, by omega⟩ ?_ ?_)
  · rintro k p s' - hk ⟨hM, hsz', hI, -⟩
    refine (idrsInit_ok K s o _ k p s' (by omega) hM (by omega)).mono ?_
    rintro ⟨q | out, s2⟩ h
    · have hn := h.1.inv hlin (k := k) (by omega) hI.1 (by omega) (fun j h1 _ => hI.2 j h1) (h.1.dir.neg hlin fun j h => absurd h (Nat.not_lt_zero j)) le_rfl
      · rw [show max k (k + 1) = k + 1 by omega] at hn
        exact ⟨h.2.2.2.2, h.2.2.2.1.size.trans hsz', hn, fun _ => hv h.2.1 hn.1⟩
    · refine Ok_ret (.inr (.inl ?_))
      have hn := h.1.inv hlin (k := k) (by omega) hI.1 (by omega) (fun j h1 _ => hI.2 j h1) (h.1.dir.neg hlin fun j h => absurd h (Nat.not_lt_zero j)) le_rfl
      · exact hv h.2.1 hn.1
  · rintro p s' ⟨hM, hsz', hI, hp⟩
    rw [Nat.zero_add] at hI hp
    refine Ok_idrsDots (by simp [Arr.malloc]) fun m hm => Ok_pbind ?_
    refine Ok_forIter (lo := s) (fun i (p : IdrsSt R × S) s' => p.1.Good s ∧ s'.hist.size = st.hist.size ∧
      IdInv K s s s'.h ∧ p.2 = resOf K o.conv (bnrmOf K o st.h) (trueRes K s'.h)) _ s _ _
        ⟨⟨hM, hm, rfl, rfl, hs⟩, hsz', hI, hp hs⟩ ?_ ?_
    · rintro k p s' - hk ⟨hg, hsz', hI, -⟩
      refine (idrsBody_ok K s hs o _ k p s' hg (by omega)).mono ?_
      have key : ∀ h2, IdStep K s s p.1.oldest s'.h h2 → IdInv K s s h2 := by
        intro h2 hst
        have := hst.inv hlin hg.old hI.1 le_rfl (fun j h1 _ => hI.2 j h1) (hst.dir.neg hlin hI.2) (Nat.le_of_lt hg.old)
        rwa [show max s (p.1.oldest + 1) = s by have := hg.old; omega] at this
      rintro ⟨q | out, s2⟩ h
      · exact ⟨h.2.2.2.2, h.2.2.2.1.size.trans hsz', key _ h.1, hv h.2.1 (key _ h.1).1⟩
      · exact Ok_ret (.inr (.inl (hv h.2.1 (key _ h.1).1)))
    · rintro p s' ⟨-, -, -, hp⟩
      exact Ok_ret (.inr (.inl hp))

end residual
end Lis
