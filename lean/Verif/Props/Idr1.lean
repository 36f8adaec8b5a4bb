import Verif.Props.Idrs

/-!
# C25: lis_idr1
-/

namespace Lis
variable {R S : Type} {n : ℕ}

section status
variable [Zero R] [One R] [Add R] [Neg R] [Mul R] [Div R] [Sub R] [Star R] [DecidableEq R] [RealOps S]

/-- what a pass does to status and history -/
def Idr1Post (o : Opts R S) (tol : S) (iter : ℕ) (st : MSt R S n) {σ : Type} : ((σ × S) ⊕ Out S) × MSt R S n → Prop
  | (.inl p, s') => s'.h hB = st.h hB ∧ ∃ v a, ¬ v ≤ tol ∧ Recorded o (iter + 1) v st.hist a ∧ ¬ p.2 ≤ tol ∧
      Recorded o (iter + 2) p.2 a s'.hist
  | (.inr out, s') => s'.h hB = st.h hB ∧ out.resid ≤ tol ∧
      ((out = ⟨.success, iter + 1, out.resid⟩ ∧ Recorded o (iter + 1) out.resid st.hist s'.hist) ∨
       (out = ⟨.success, iter + 2, out.resid⟩ ∧ ∃ v a, ¬ v ≤ tol ∧ Recorded o (iter + 1) v st.hist a ∧
          Recorded o (iter + 2) out.resid a s'.hist))

theorem idr1Body_ok (K : Kit R S n) (o : Opts R S) (t : Tols S) (i : ℕ) (p : (R × R) × S) (st : MSt R S n)
    (hi : i + 2 < st.hist.size) : Ok ((idr1Body o t i p).run K st) (Idr1Post o t.tol i st) := by
  unfold idr1Body
  simp only [mPsolve, mMatvec, vAxpyz, vComb, vAxpy, vDot, vNhdot, vScale]
  refine Ok_vop fun _ _ => Ok_vop fun _ _ => Ok_vop fun _ _ => Ok_red fun _ _ => Ok_red fun _ _ => Ok_vop fun _ _ =>
    Ok_vop fun _ _ => Ok_vop fun _ _ => Ok_vop fun _ _ => Ok_checkResid (by simp only; omega) fun v a _ hr =>
    Ok_pif (fun hle => Ok_ret ?_) fun hle => ?_
  · exact ⟨by vlook, hle, .inl ⟨rfl, hr⟩⟩
  · refine Ok_red fun _ _ => Ok_vop fun _ _ => Ok_vop fun _ _ => Ok_vop fun _ _ => Ok_vop fun _ _ => Ok_vop fun _ _ =>
      Ok_vop fun _ _ => Ok_vop fun _ _ => Ok_checkResid (by rw [hr.size]; exact hi) fun v2 a2 _ hr2 =>
      Ok_pif (fun hle2 => Ok_ret ?_) fun hle2 => Ok_red fun _ _ => Ok_ret ?_
    · exact ⟨by vlook, hle2, .inr ⟨rfl, v, a, hle, hr, hr2⟩⟩
    · exact ⟨by vlook, v, a, hle, hr, hle2, hr2⟩

/-- **C25: status contract of `lis_idr1`**, provided the residual history has room for the iterations made: with an odd
`maxiter` these are up to `maxiter + 2`, see `lisIdr1_rhistory_overflow`. -/
theorem lisIdr1_status (toR : S → R) (rnd : ℕ → R) (K : Kit R S n) (o : Opts R S) (st : MSt R S n)
    (hsz : 2 * ((o.maxiter + 1) / 2) + 1 < st.hist.size) :
    Ok ((lisIdr1 toR rnd o).run K st) fun r => ContractLast K o (2 * ((o.maxiter + 1) / 2) + 1) st r.2 r.1 := by
  unfold lisIdr1
  refine Ok_solverLast (K := K) (o := o) (s := st) (by decide) fun hinit => ?_
  simp only [vFill, mPsolve, mMatvec, vScale, vAxpy, vDot]
  refine Ok_vop fun w0 _ => Ok_pbind ((idrsOrth_ok K toR 1 _ _).mono ?_)
  rintro ⟨_, ⟨h', a⟩⟩ ⟨hh, hk⟩
  simp only [VOp.dst] at hh hk
  subst hh
  have hb : h' hB = st.h hB := by
    rw [hk hB fun _ _ => by decide]
    rw [Function.update_of_ne (by decide), Function.update_of_ne (by decide)]
  have h0 : LInv o (tolOf K o st.h) (st.h hB) st.hist 0 (0 : S) ⟨h', st.hist⟩ :=
    ⟨hb, rfl, fun _ _ => rfl, fun _ j h1 h2 => by omega, by omega⟩
  refine Ok_vop fun _ _ => Ok_vop fun _ _ => Ok_red fun _ _ => Ok_red fun _ _ => Ok_vop fun _ _ => Ok_vop fun _ _ =>
    Ok_vop fun _ _ => Ok_vop fun _ _ => Ok_checkResid (by simp only; omega) fun v a _ hr =>
    Ok_pif (fun hle => Ok_ret ?_) fun hle => Ok_red fun _ _ => Ok_red fun _ _ => Ok_pbind ?_
  · exact h0.success hinit (by vlook) hle hr (by omega)
  · refine Ok_forIter (lo := 0) (fun j (p : (R × R) × S) s' => LInv o (tolOf K o st.h) (st.h hB) st.hist (2 * j + 1) p.2 s')
      _ 0 _ _ (h0.step (by vlook) hle hr) ?_ ?_
    · intro j p s' _ hj hI
      refine (idr1Body_ok K o _ (2 * j + 1) p s' (by rw [hI.size]; omega)).mono ?_
      rintro ⟨q | out, s2⟩ h
      · obtain ⟨hb, v, a, h1, h2, h3, h4⟩ := h
        exact (hI.step (s' := ⟨s'.h, a⟩) rfl h1 h2).step hb h3 h4
      · refine Ok_ret ?_
        obtain ⟨hb, hle, ⟨he, h1⟩ | ⟨he, v, a, h1, h2, h3⟩⟩ := h
        · rw [he]
          exact hI.success hinit hb hle h1 (by omega)
        · rw [he]
          exact (hI.step (s' := ⟨s'.h, a⟩) rfl h1 h2).success hinit hb hle h3 (by omega)
    · intro p s' hI
      rw [Nat.zero_add] at hI
      exact Ok_ret (hI.maxiter hinit (by omega))

end status

section residual
variable [CommRing R] [Div R] [Star R] [DecidableEq R] [RealOps S]

theorem idr1Body_res (K : Kit R S n) (hlin : K.Linear) (o : Opts R S) (t : Tols S) (i : ℕ) (p : (R × R) × S)
    (st : MSt R S n) (hi : i + 2 < st.hist.size) (hr : HoldsRes K (wk 0) st.h)
    (hd : ∀ j, st.h (wk 6) j = - K.mv (st.h (wk 5)) j) :
    Ok ((idr1Body o t i p).run K st) fun r => r.2.hist.size = st.hist.size ∧
      match r.1 with
      | .inl q => HoldsRes K (wk 0) r.2.h ∧ (∀ j, r.2.h (wk 6) j = - K.mv (r.2.h (wk 5)) j) ∧
          q.2 = resOf K o.conv t.bnrm (trueRes K r.2.h)
      | .inr out => out.resid = resOf K o.conv t.bnrm (trueRes K r.2.h) := by
  have hi1 : i + 1 < st.hist.size := by omega
  unfold HoldsRes at *
  unfold idr1Body
  simp only [mPsolve, mMatvec, vAxpyz, vComb, vAxpy, vDot, vNhdot, vScale]
  refine Ok_vopL hlin fun _ _ => Ok_vopL hlin fun _ _ => Ok_vopL hlin fun _ _ => Ok_red' fun _ => Ok_red' fun _ =>
    Ok_vopL hlin fun _ _ => Ok_vopL hlin fun _ _ => Ok_vopL hlin fun _ _ => Ok_vopL hlin fun _ _ =>
    Ok_checkResid (by simp only; omega) fun v a _ hr => Ok_pif (fun hle => Ok_ret ?_) fun hle => ?_
  · simp (disch := decide) only [VOp.Lin, VOp.dst, Function.update_self, Function.update_of_ne, ne_eq,
      true_implies, List.foldl_cons, List.foldl_nil] at *
    exact ⟨Recorded.size (by assumption), resOf_of (by assumption) (by vlin)⟩
  · refine Ok_red' fun _ => Ok_vopL hlin fun _ _ => Ok_vopL hlin fun _ _ => Ok_vopL hlin fun _ _ => Ok_vopL hlin fun _ _ =>
      Ok_vopL hlin fun _ _ => Ok_vopL hlin fun _ _ => Ok_vopL hlin fun _ _ =>
      Ok_checkResid (by rw [hr.size]; exact hi) fun v2 a2 _ hr2 =>
      Ok_pif (fun hle2 => Ok_ret ?_) fun hle2 => Ok_red' fun _ => Ok_ret ?_
    all_goals simp (disch := decide) only [VOp.Lin, VOp.dst, Function.update_self, Function.update_of_ne, ne_eq,
        true_implies, List.foldl_cons, List.foldl_nil] at *
    · exact ⟨hr2.size.trans hr.size, resOf_of (by assumption) (by vlin)⟩
    · exact ⟨hr2.size.trans hr.size, by vlin, by vlin, resOf_of (by assumption) (by vlin)⟩

/-- **C25: `lis_idr1` reports the residual of the `x` it returns** -/
theorem lisIdr1_residual (toR : S → R) (rnd : ℕ → R) (K : Kit R S n) (hlin : K.Linear) (o : Opts R S) (junk : S)
    (st : MSt R S n) (hsz : 2 * ((o.maxiter + 1) / 2) + 1 < st.hist.size) (hz : o.initZero → st.h hX = 0) :
    Ok ((lisIdr1 toR rnd o).run K st) fun r => ReportsTrue K o junk st r.2 r.1 := by
  unfold lisIdr1
  refine Ok_solverRes (K := K) (o := o) (s := st) hlin (by decide) hz fun w hw => ?_
  simp only [vFill, mPsolve, mMatvec, vScale, vAxpy, vDot]
  refine Ok_vop fun w0 _ => Ok_pbind ((idrsOrth_ok K toR 1 _ _).mono ?_)
  rintro ⟨_, ⟨h', a⟩⟩ ⟨hh, hk⟩
  simp only [VOp.dst] at hh hk
  subst hh
  have hb : h' hB = st.h hB := by
    rw [hk hB fun _ _ => by decide, Function.update_of_ne (by decide), Function.update_of_ne (by decide)]
  have hx : h' hX = st.h hX := by
    rw [hk hX fun _ _ => by decide, Function.update_of_ne (by decide), Function.update_of_ne (by decide)]
  have hr0 : ∀ j, h' (wk 0) j = h' hB j - K.mv (h' hX) j := by
    intro j
    rw [hb, hx, hk (wk 0) fun _ _ => by decide, Function.update_of_ne (by decide), Function.update_self, hw]
  refine Ok_vopL hlin fun _ _ => Ok_vopL hlin fun _ _ => Ok_red' fun _ => Ok_red' fun _ => Ok_vopL hlin fun _ _ =>
    Ok_vopL hlin fun _ _ => Ok_vopL hlin fun _ _ => Ok_vopL hlin fun _ _ =>
    Ok_checkResid (by simp only; omega) fun v a _ hr =>
    Ok_pif (fun hle => Ok_ret ?_) fun hle => Ok_red' fun _ => Ok_red' fun _ => Ok_pbind ?_
  · simp (disch := decide) only [VOp.Lin, VOp.dst, Function.update_self, Function.update_of_ne, ne_eq,
      true_implies] at *
    exact .inr (.inl (resOf_of (by assumption) (by vlin)))
  · refine Ok_forIter (lo := 0) (fun j (p : (R × R) × S) s' => s'.hist.size = st.hist.size ∧ HoldsRes K (wk 0) s'.h ∧
      (∀ j, s'.h (wk 6) j = - K.mv (s'.h (wk 5)) j) ∧ p.2 = resOf K o.conv (bnrmOf K o st.h) (trueRes K s'.h))
      _ 0 _ _ ?_ ?_ ?_
    · simp (disch := decide) only [VOp.Lin, VOp.dst, Function.update_self, Function.update_of_ne, ne_eq,
        true_implies, HoldsRes] at *
      exact ⟨hr.size, by vlin, by vlin, resOf_of (by assumption) (by vlin)⟩
    · rintro j p s' _ hj ⟨h1, h2, h3, -⟩
      refine (idr1Body_res K hlin o _ (2 * j + 1) p s' (by omega) h2 h3).mono ?_
      rintro ⟨q | out, s2⟩ ⟨h4, h5⟩
      · exact ⟨h4.trans h1, h5⟩
      · exact Ok_ret (.inr (.inl h5))
    · rintro p s' ⟨-, -, -, hp⟩
      exact Ok_ret (.inr (.inl hp))

end residual
end Lis
