import Verif.Lemmas.Bicgstabl

/-!
# C25: lis_bicgstabl, status
-/

namespace Lis
variable {R S : Type} {n : ℕ}
variable [Zero R] [One R] [Add R] [Neg R] [Mul R] [Div R] [Sub R] [Star R] [DecidableEq R] [RealOps S]

/-- breakdown: `(rtld, r[j]) = 0` or `(rtld, u[j+1]) = 0` for some `j < l` -/
def BlBrk (K : Kit R S n) (l : ℕ) (h : MHeap R n) : Prop :=
  ∃ j, j < l ∧ (K.dot (h (wk 0)) (h (blR j)) = 0 ∨ K.dot (h (wk 0)) (h (blU l (j + 1))) = 0)

/-- what a step of the BiCG part does to status and history -/
def BlStep (K : Kit R S n) (l : ℕ) (o : Opts R S) (tol : S) (iter : ℕ) (prev : S) (s : MSt R S n) :
    ((BlSt R × S) ⊕ Out S) × MSt R S n → Prop
  | (.inl p, s') => s'.h hB = s.h hB ∧ ¬ p.2 ≤ tol ∧
      s'.hist = if iter % l ≠ 0 ∧ o.mem = true then s.hist.set iter p.2 else s.hist
  | (.inr out, s') => s'.h hB = s.h hB ∧ out.iter = iter ∧
      ((out.ret = .success ∧ out.resid ≤ tol ∧ Recorded o iter out.resid s.hist s'.hist) ∨
       (out.ret = .breakdown ∧ BlBrk K l s'.h ∧ out.resid = prev ∧ s'.hist = s.hist))

omit [Zero R] [One R] [Add R] [Neg R] [Mul R] [Div R] [Sub R] [Star R] [DecidableEq R] [RealOps S] in
theorem Arr.set_set_same {α : Type} (a : Arr α) (i : ℕ) (v : α) : (a.set i v).set i v = a.set i v := by
  simp only [Arr.set, Arr.mk.injEq, true_and]
  funext j
  split <;> rfl

theorem blBicg_ok (K : Kit R S n) (l : ℕ) (o : Opts R S) (t : Tols S) (iter j : ℕ) (hj : j < l) (p : BlSt R × S)
    (s : MSt R S n) (hi : iter < s.hist.size) :
    Ok ((blBicg l o t iter j p).run K s) (BlStep K l o t.tol iter p.2 s) := by
  unfold blBicg
  simp only [mPsolve, mMatvec, vAxpy, vDot]
  refine Ok_red fun rho1 hrho => Ok_pif (fun h0 => ?_) fun h0 => ?_
  · refine Ok_pbind ((blFinish_ok K s).mono ?_)
    rintro ⟨_, s1⟩ ⟨e1, -, e2⟩
    refine Ok_ret ⟨e2 _ (by decide) (by decide), rfl, .inr ⟨rfl, ⟨j, hj, .inl ?_⟩, rfl, e1⟩⟩
    rw [e2 _ (by decide) (by decide), e2 (blR j) (by simp only [blR, wk, hX]; omega) (by simp only [blR, wk]; omega), ← h0, hrho]
    rfl
  refine Ok_pbind ((blXpay_ok K l _ j hj s).mono ?_)
  rintro ⟨_, s1⟩ ⟨a1, a2, a3⟩
  simp only at a1 a2 a3
  refine Ok_vop fun w1 _ => Ok_vop fun w2 _ => Ok_red fun nu hnu => Ok_pif (fun h1 => ?_) fun h1 => ?_
  · refine Ok_pbind ((blFinish_ok K _).mono ?_)
    rintro ⟨_, s2⟩ ⟨e1, -, e2⟩
    simp only [VOp.dst] at e1 e2 hnu
    refine Ok_ret ⟨?_, rfl, .inr ⟨rfl, ⟨j, hj, .inr ?_⟩, rfl, e1.trans a1⟩⟩
    · rw [e2 _ (by decide) (by decide), Function.update_of_ne (by simp only [hB, blU, wk]; omega),
        Function.update_of_ne (by decide), a3 _ (by intro i _; simp only [hB, blU, wk]; omega)]
    · rw [e2 _ (by decide) (by decide), e2 (blU l (j + 1)) (by simp only [blU, wk, hX]; omega)
        (by simp only [blU, wk]; omega), ← h1, hnu]
      rfl
  refine Ok_vop fun w3 _ => Ok_pbind ((blAxpy_ok K l _ j hj _).mono ?_)
  rintro ⟨_, s2⟩ ⟨b1, b2, b3⟩
  simp only [VOp.dst] at b1 b2 b3
  rw [a1] at b1
  have hb2 : s2.h hB = s.h hB := by
    rw [b3 hB (by intro i _; simp only [hB, blR, wk]; omega), Function.update_of_ne (by decide),
      Function.update_of_ne (by simp only [hB, blU, wk]; omega), Function.update_of_ne (by decide),
      a3 _ (by intro i _; simp only [hB, blU, wk]; omega)]
  refine Ok_getResidual fun v hv => Ok_pif (fun hm => Ok_hist (by rw [b1]; exact hi) ?_) fun hm => ?_
  · refine Ok_pif (fun hle => Ok_pif (fun _ => Ok_hist (by rw [b1]; exact hi) ?_) fun h => absurd hm.2 h) fun hle => ?_
    · refine Ok_pbind ((blFinish_ok K _).mono ?_)
      rintro ⟨_, s3⟩ ⟨e1, -, e2⟩
      refine Ok_ret ⟨(e2 _ (by decide) (by decide)).trans hb2, rfl, .inl ⟨rfl, hle, ?_⟩⟩
      simp only at e1
      unfold Recorded
      rw [e1, if_pos hm.2, b1, Arr.set_set_same]
    · refine Ok_vop fun _ _ => Ok_vop fun _ _ => Ok_ret ⟨?_, hle, ?_⟩
      · simp only [VOp.dst]
        rw [Function.update_of_ne (by simp only [hB, blR, wk]; omega), Function.update_of_ne (by decide)]
        exact hb2
      · rw [if_pos hm, b1]
  · refine Ok_pif (fun hle => Ok_pif (fun hm2 => Ok_hist (by rw [b1]; exact hi) ?_) fun hm2 => ?_) fun hle => ?_
    · refine Ok_pbind ((blFinish_ok K _).mono ?_)
      rintro ⟨_, s3⟩ ⟨e1, -, e2⟩
      refine Ok_ret ⟨(e2 _ (by decide) (by decide)).trans hb2, rfl, .inl ⟨rfl, hle, ?_⟩⟩
      simp only at e1
      unfold Recorded
      rw [e1, if_pos hm2, b1]
    · refine Ok_pbind ((blFinish_ok K _).mono ?_)
      rintro ⟨_, s3⟩ ⟨e1, -, e2⟩
      refine Ok_ret ⟨(e2 _ (by decide) (by decide)).trans hb2, rfl, .inl ⟨rfl, hle, ?_⟩⟩
      simp only at e1
      unfold Recorded
      rw [e1, if_neg hm2, b1]
    · refine Ok_vop fun _ _ => Ok_vop fun _ _ => Ok_ret ⟨?_, hle, ?_⟩
      · simp only [VOp.dst]
        rw [Function.update_of_ne (by simp only [hB, blR, wk]; omega), Function.update_of_ne (by decide)]
        exact hb2
      · rw [if_neg hm, b1]

/-- `LInv`, and nothing recorded before the first iteration -/
def BInv (o : Opts R S) (tol junk : S) (b : Fin n → R) (a0 : Arr S) (i : ℕ) (v : S) (s : MSt R S n) : Prop :=
  LInv o tol b a0 i v s ∧ (i = 0 → v = junk ∧ s.hist = a0)

/-- one pass -/
theorem blBody_ok (K : Kit R S n) (l : ℕ) (hl : 1 ≤ l) (o : Opts R S) (junk bnrm : S) (s0 : MSt R S n) (k last : ℕ)
    (hinit : ¬ initialResOf K o s0.h ≤ RealOps.fabs o.tol)
    (p : (R × R × R × Arr (Option R)) × S) (s : MSt R S n) (hlast : k * l + l ≤ last) (hsz : last < s0.hist.size)
    (hp : p.1.2.2.2.size = (l + 1) * (4 + l + 1))
    (hI : BInv o (tolOf K o s0.h) junk (s0.h hB) s0.hist (k * l) p.2 s) :
    Ok ((blBody l o ⟨bnrm, tolOf K o s0.h⟩ (k * l) p).run K s) fun r =>
      match r.1 with
      | .inl q => q.1.2.2.2.size = (l + 1) * (4 + l + 1) ∧
          BInv o (tolOf K o s0.h) junk (s0.h hB) s0.hist ((k + 1) * l) q.2 r.2
      | .inr out => ContractLastB K o last junk (BlBrk K l) s0 r.2 out := by
  obtain ⟨⟨alpha, omega, rho0, a⟩, nrm2⟩ := p
  have hmod : ∀ j, j < l → (k * l + j + 1) % l = 0 → j + 1 = l := by
    intro j hj h
    by_contra hne
    rw [show k * l + j + 1 = j + 1 + l * k by rw [Nat.mul_comm]; omega, Nat.add_mul_mod_self_left,
      Nat.mod_eq_of_lt (by omega)] at h
    omega
  have hmod' : (k * l + (l - 1) + 1) % l = 0 := by
    rw [show k * l + (l - 1) + 1 = l * (k + 1) by rw [Nat.mul_add, Nat.mul_comm]; omega]
    exact Nat.mul_mod_right _ _
  unfold blBody
  refine Ok_pbind (Ok_forIter (lo := 0) (fun j (p : BlSt R × S) s' => ∃ v0, (j < l → v0 = p.2) ∧
    BInv o (tolOf K o s0.h) junk (s0.h hB) s0.hist (k * l + min j (l - 1)) v0 s') l 0 _ s ⟨nrm2, fun _ => rfl, by
      rw [Nat.zero_min]; exact hI⟩ ?_ ?_)
  · rintro j q s' - hj ⟨v0, hv0, hI⟩
    rw [Nat.zero_add] at hj
    obtain rfl := hv0 hj
    rw [Nat.min_eq_left (by omega)] at hI
    have hsz' : k * l + j + 1 < s'.hist.size := by rw [hI.1.size]; omega
    refine (blBicg_ok K l o _ (k * l + j + 1) j hj q s' hsz').mono ?_
    rintro ⟨q' | out, s2⟩ h
    · obtain ⟨hb, hv, hh⟩ := h
      simp only at hv hh hb ⊢
      by_cases hjl : j + 1 = l
      · refine ⟨q.2, by omega, ?_⟩
        rw [show min (j + 1) (l - 1) = j by omega]
        have hj' : j = l - 1 := by omega
        rw [if_neg (by rw [hj', hmod']; simp)] at hh
        obtain ⟨⟨c1, c2, c3, c4, c5⟩, c6⟩ := hI
        refine ⟨⟨hb.trans c1, by rw [hh]; exact c2, by rw [hh]; exact c3, by rw [hh]; exact c4, by rw [hh]; exact c5⟩,
          by rw [hh]; exact c6⟩
      · refine ⟨q'.2, fun _ => rfl, ?_⟩
        rw [show min (j + 1) (l - 1) = j + 1 by omega]
        refine ⟨hI.1.step hb hv ?_, by omega⟩
        unfold Recorded
        rw [hh]
        have : (k * l + j + 1) % l ≠ 0 := fun h => hjl (hmod j hj h)
        simp only [ne_eq, this, not_false_eq_true, true_and]
    · refine Ok_ret ?_
      obtain ⟨hb, hit, h⟩ := h
      rcases h with ⟨h1, h2, h3⟩ | ⟨h1, h2, h3, h4⟩
      · have hc := hI.1.success (last := last) hinit hb h2 h3 (by omega)
        have e : out = ⟨.success, k * l + j + 1, out.resid⟩ := by
          obtain ⟨a, b, c⟩ := out; simp only at h1 hit ⊢; rw [h1, hit]
        rw [e]
        refine ⟨hc.b, hc.size, hc.hist, hc.fails, ?_⟩
        rcases hc.cases with h | h | h
        · exact .inl h
        · exact .inr (.inl h)
        · exact .inr (.inr (.inl h))
      · obtain ⟨⟨c1, c2, c3, c4, c5⟩, c6⟩ := hI
        refine ⟨hb.trans c1, by rw [h4]; exact c2, fun j' hj' => ?_, fun hm j' h1 h2 => ?_,
          .inr (.inr (.inr ⟨hinit, h1, by omega, by omega, h2, ?_⟩))⟩
        · rw [h4]
          refine c3 j' ?_
          rcases hj' with h | h | h
          · exact .inl h
          · exact .inr (.inl h)
          · exact .inr (.inr (by omega))
        · rw [h4]; exact c4 hm j' h1 (by omega)
        · rw [h3, h4, hit]
          by_cases h0 : k * l + j = 0
          · exact .inl ⟨by omega, c6 h0⟩
          · exact .inr (c5 (by omega)).1
  · rintro ⟨g, v⟩ s' ⟨v0, -, hI⟩
    rw [Nat.zero_add, Nat.min_eq_right (by omega)] at hI
    refine Ok_pbind ((blScalars_ok K l hl a s' hp).mono ?_)
    rintro ⟨⟨a', om⟩, s2⟩ ⟨e1, e2, e3, e4⟩
    refine Ok_pbind ((blUpdate_ok K l hl a' s2 e3 e4).mono ?_)
    rintro ⟨_, s3⟩ ⟨f1, f2⟩
    simp only at e1 e2 f1 f2
    have hh : s3.hist = s'.hist := f1.trans e1
    have hb : s3.h hB = s'.h hB := by
      rw [f2 _ (by decide) (by decide) (by simp only [hB, blU, wk]; omega), e2 _ (by intro j _ _; simp only [hB, blR, wk]; omega)]
    refine Ok_checkResid (by rw [hh, hI.1.size]; omega) fun w a2 _ hr => Ok_pif (fun hle => ?_) fun hle => Ok_ret ?_
    · rw [hh] at hr
      refine Ok_pbind ((blFinish_ok K _).mono ?_)
      rintro ⟨_, s4⟩ ⟨g1, -, g2⟩
      refine Ok_ret ?_
      have hc := hI.1.success (s' := s4) (v' := w) (last := last) hinit ((g2 _ (by decide) (by decide)).trans hb) hle
        (by simp only at g1; rw [g1, show k * l + (l - 1) + 1 = k * l + l by omega]; exact hr) (by omega)
      rw [show k * l + (l - 1) + 1 = k * l + l by omega] at hc
      refine ⟨hc.b, hc.size, hc.hist, hc.fails, ?_⟩
      rcases hc.cases with h | h | h
      · exact .inl h
      · exact .inr (.inl h)
      · exact .inr (.inr (.inl h))
    · rw [hh] at hr
      refine ⟨e3, ?_⟩
      have := hI.1.step (s' := ⟨s3.h, a2⟩) (v' := w) hb hle
        (by rw [show k * l + (l - 1) + 1 = k * l + l by omega]; exact hr)
      rw [show k * l + (l - 1) + 1 = (k + 1) * l by rw [Nat.add_mul]; omega] at this
      exact ⟨this, fun h => absurd h (by rw [Nat.add_mul]; omega)⟩

/-- **C25: status contract of `lis_bicgstabl`** (`l ≥ 1` is checked before).  The loop makes `maxiter/l + 1` passes of
`l` iterations, so up to `l` iterations more than `maxiter`, and the residual history must have room for them (it has not,
see `lisBicgstabl_rhistory_overflow`). -/
theorem lisBicgstabl_status (l : ℕ) (hl : 1 ≤ l) (junk : S) (K : Kit R S n) (o : Opts R S) (s : MSt R S n)
    (hsz : (o.maxiter / l + 1) * l < s.hist.size) :
    Ok ((lisBicgstabl l junk o).run K s) fun r =>
      ContractLastB K o ((o.maxiter / l + 1) * l) junk (BlBrk K l) s r.2 r.1 := by
  unfold lisBicgstabl
  simp only [Prog.run_bind, run_initialResidual K o (blR 0) (by decide) (by decide), Option.bind_some]
  by_cases hinit : initialResOf K o s.h ≤ RealOps.fabs o.tol
  · rw [if_pos hinit]
    exact Ok_ret ⟨Function.update_of_ne (show hB ≠ blR 0 by decide) (r0Of K o s.h) s.h, rfl, fun _ _ => rfl, fun _ j h1 h2 => by simp only at h2; omega,
        .inl ⟨rfl, hinit, Function.update_of_ne (show hX ≠ blR 0 by decide) (r0Of K o s.h) s.h, rfl⟩⟩
  · rw [if_neg hinit]
    simp only [vCopy, vSetAll]
    refine Ok_setShadow fun w0 => Ok_vop fun w1 _ => Ok_vop fun w2 _ => Ok_vop fun w3 _ => Ok_pbind (Ok_forIter (lo := 0)
      (fun k (p : (R × R × R × Arr (Option R)) × S) s' => p.1.2.2.2.size = (l + 1) * (4 + l + 1) ∧
        BInv o (tolOf K o s.h) junk (s.h hB) s.hist (k * l) p.2 s') _ 0 _ _ ⟨rfl, ⟨?_, rfl, fun _ _ => rfl,
          fun _ j h1 h2 => by omega, by omega⟩, fun _ => ⟨rfl, rfl⟩⟩ ?_ ?_)
    · simp only [VOp.dst]
      rw [Function.update_of_ne (by simp only [hB, blU, wk]; omega), Function.update_of_ne (by decide),
        Function.update_of_ne (by decide), Function.update_of_ne (by decide), Function.update_of_ne (by decide)]
    · rintro k p s' - hk ⟨hp, hI⟩
      have hle : k * l + l ≤ (o.maxiter / l + 1) * l := by
        have := Nat.mul_le_mul_right l (show k + 1 ≤ o.maxiter / l + 1 by omega)
        rw [Nat.add_mul k 1 l] at this; omega
      refine (blBody_ok K l hl o junk _ s k _ hinit p s' hle hsz hp hI).mono ?_
      rintro ⟨q | out, s2⟩ h
      · exact h
      · exact Ok_ret h
    · rintro p s' ⟨-, hI⟩
      rw [Nat.zero_add] at hI
      refine Ok_ret ?_
      have h1 : 1 ≤ (o.maxiter / l + 1) * l := Nat.mul_pos (Nat.succ_pos _) hl
      have hc := hI.1.maxiter hinit h1
      refine ⟨hc.b, hc.size, hc.hist, hc.fails, ?_⟩
      rcases hc.cases with h | h | h
      · exact .inl h
      · exact .inr (.inl h)
      · exact .inr (.inr (.inl h))

end Lis
