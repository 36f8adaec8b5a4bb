import Verif.Props.Bicgstabl
import Verif.Lemmas.BicgstablRes
import Verif.Lemmas.SolverRes
import Mathlib.Tactic.Abel

/-!
# C25: lis_bicgstabl, what the reported residual is the residual of
-/

namespace Lis
open Finset
variable {R S : Type} {n : ℕ}
variable [CommRing R] [Div R] [Star R] [DecidableEq R] [RealOps S]

/-- What `lis_bicgstabl` reports, when started with `x0` and stopped with `x'`.
* converged or broken down: the residual of `x'` **plus `A M⁻¹ x0`**
* `LIS_MAXITER`: the residual of `M⁻¹(x' - x0) + x0` (the last step of the other exits, `x ← M⁻¹x + x0`, is missing)
* breakdown in the first iteration: the uninitialised variable. -/
def BlReports (K : Kit R S n) (o : Opts R S) (junk : S) (s s' : MSt R S n) (out : Out S) : Prop :=
  (out.ret = .success ∧ out.resid = initialResOf K o s.h ∧ initialResOf K o s.h ≤ RealOps.fabs o.tol ∧
    r0Of K o s.h = trueRes K s'.h) ∨
  (out.ret ≠ .maxiter ∧ out.resid = resOf K o.conv (bnrmOf K o s.h)
    fun i => s.h hB i - K.mv (s'.h hX) i + K.mv (K.ps (s.h hX)) i) ∨
  (out.ret = .maxiter ∧ out.resid = resOf K o.conv (bnrmOf K o s.h)
    fun i => s.h hB i - K.mv (fun i => K.ps (fun i => s'.h hX i - s.h hX i) i + s.h hX i) i) ∨
  (out.ret = .breakdown ∧ out.iter = 1 ∧ out.resid = junk)

/-- the invariant of the BiCG part -/
structure BlJ (B : (Fin n → R) →ₗ[R] (Fin n → R)) (c0 x0 : Fin n → R) (l j : ℕ) (h : MHeap R n) : Prop where
  r : ∀ i, i < j → h (blR (i + 1)) = B (h (blR i))
  u : ∀ i, i < j → h (blU l (i + 1)) = B (h (blU l i))
  x : h (blR 0) = c0 - B (h hX)
  p : h (wk 1) = x0

/-- the returned `x` after `blFinish` -/
def BlFin (K : Kit R S n) (B : (Fin n → R) →ₗ[R] (Fin n → R)) (c0 x0 : Fin n → R) (o : Opts R S) (bnrm v : S) (h : MHeap R n) : Prop :=
  ∃ y, h hX = (fun i => K.ps y i + 1 * x0 i) ∧ v = resOf K o.conv bnrm (c0 - B y)

theorem blBicg_res (K : Kit R S n) (B : (Fin n → R) →ₗ[R] (Fin n → R)) (hB : ∀ v, B v = K.mv (K.ps v))
    (c0 x0 : Fin n → R) (l : ℕ) (o : Opts R S) (t : Tols S) (iter j : ℕ) (hj : j < l) (p : BlSt R × S)
    (s : MSt R S n) (hi : iter < s.hist.size) (hJ : BlJ B c0 x0 l j s.h) :
    Ok ((blBicg l o t iter j p).run K s) fun r => r.2.hist.size = s.hist.size ∧
      match r.1 with
      | .inl q => BlJ B c0 x0 l (j + 1) r.2.h ∧ q.2 = resOf K o.conv t.bnrm (r.2.h (blR 0))
      | .inr out => out.iter = iter ∧ ((out.ret = .success ∧ BlFin K B c0 x0 o t.bnrm out.resid r.2.h) ∨
          (out.ret = .breakdown ∧ out.resid = p.2 ∧ r.2.h hX = fun i => K.ps (s.h hX) i + 1 * x0 i)) := by
  unfold blBicg
  simp only [mPsolve, mMatvec, vAxpy, vDot]
  refine Ok_red fun rho1 hrho => Ok_pif (fun h0 => ?_) fun h0 => ?_
  · refine Ok_pbind ((blFinish_ok K s).mono ?_)
    rintro ⟨_, s1⟩ ⟨e1, e3, -⟩
    simp only at e1 e3
    refine Ok_ret ⟨by simp only; rw [e1], rfl, .inr ⟨rfl, rfl, ?_⟩⟩
    simp only
    rw [e3, hJ.p]
  refine Ok_pbind ((blXpay_ok K l _ j hj s).mono ?_)
  rintro ⟨_, s1⟩ ⟨a1, a2, a3⟩
  simp only at a1 a2 a3
  generalize p.1.alpha * (rho1 / p.1.rho0) = β at a2
  have hX1 : s1.h hX = s.h hX := a3 _ (by intro i _; simp only [hX, blU, wk]; omega)
  have hR1 : ∀ i, i ≤ j → s1.h (blR i) = s.h (blR i) := fun i _ => a3 _ (by intro i' _; simp only [blR, blU, wk]; omega)
  have hP1 : s1.h (wk 1) = x0 := (a3 _ (by intro i' _; simp only [blU, wk]; omega)).trans hJ.p
  have hU1 : ∀ i, i < j → s1.h (blU l (i + 1)) = B (s1.h (blU l i)) := by
    intro i hi
    rw [a2 (i + 1) (by omega), a2 i (by omega)]
    have e : (fun x => s.h (blR i) x + -β * s.h (blU l i) x) = s.h (blR i) + (-β) • s.h (blU l i) := by
      funext x; simp
    rw [e, map_add, map_smul, ← hJ.r i hi, ← hJ.u i hi]
    funext x; simp
  refine Ok_vop fun w1 h1 => Ok_vop fun w2 h2 => Ok_red fun nu hnu => Ok_pif (fun hn => ?_) fun hn => ?_
  · refine Ok_pbind ((blFinish_ok K _).mono ?_)
    rintro ⟨_, s2⟩ ⟨e1, e3, -⟩
    simp only [VOp.dst] at e1 e3
    refine Ok_ret ⟨by simp only; rw [e1, a1], rfl, .inr ⟨rfl, rfl, ?_⟩⟩
    simp only
    rw [e3, Function.update_of_ne (show wk 1 ≠ blU l (j + 1) by simp only [blU, wk]; omega), Function.update_of_ne (show wk 1 ≠ wk 3 by decide), hP1,
      Function.update_of_ne (show hX ≠ blU l (j + 1) by simp only [hX, blU, wk]; omega), Function.update_of_ne (show hX ≠ wk 3 by decide), hX1]
  simp only [VOp.dst, VOp.val] at h1 h2
  rw [Function.update_self, h1, ← hB] at h2
  generalize rho1 / nu = α
  refine Ok_vop fun w3 h3 => Ok_pbind ((blAxpy_ok K l _ j hj _).mono ?_)
  rintro ⟨_, s2⟩ ⟨b1, b2, b3⟩
  simp only [VOp.dst, VOp.val] at b1 b2 b3 h3
  rw [a1] at b1
  -- the heap before blAxpy
  have hUj : ∀ i, i ≤ j → (Function.update (Function.update (Function.update s1.h (wk 3) w1) (blU l (j + 1)) w2) hX w3) (blU l i)
      = s1.h (blU l i) := by
    intro i hi
    rw [Function.update_of_ne (by simp only [hX, blU, wk]; omega), Function.update_of_ne (by simp only [blU, wk]; omega),
      Function.update_of_ne (by simp only [blU, wk]; omega)]
  have hUj1 : (Function.update (Function.update (Function.update s1.h (wk 3) w1) (blU l (j + 1)) w2) hX w3) (blU l (j + 1)) = w2 := by
    rw [Function.update_of_ne (by simp only [hX, blU, wk]; omega), Function.update_self]
  have hRj : ∀ i, i ≤ j → (Function.update (Function.update (Function.update s1.h (wk 3) w1) (blU l (j + 1)) w2) hX w3) (blR i)
      = s.h (blR i) := by
    intro i hi
    rw [Function.update_of_ne (by simp only [hX, blR, wk]; omega), Function.update_of_ne (by simp only [blU, blR, wk]; omega),
      Function.update_of_ne (by simp only [blR, wk]; omega), hR1 i hi]
  have hU2 : ∀ i, i < j + 1 → s2.h (blU l (i + 1)) = B (s2.h (blU l i)) := by
    intro i hi
    rw [b3 _ (by intro i' _; simp only [blR, blU, wk]; omega), b3 (blU l i) (by intro i' _; simp only [blR, blU, wk]; omega)]
    rw [hUj i (by omega)]
    by_cases he : i = j
    · subst he; rw [hUj1, h2]
    · rw [hUj (i + 1) (by omega), hU1 i (by omega)]
  have hR2 : ∀ i, i ≤ j → s2.h (blR i) = s.h (blR i) - α • s2.h (blU l (i + 1)) := by
    intro i hi
    rw [b2 i hi, hRj i hi, b3 (blU l (i + 1)) (by intro i' _; simp only [blR, blU, wk]; omega)]
    funext x; simp; ring
  have hX2 : s2.h hX = s.h hX + α • s2.h (blU l 0) := by
    rw [b3 hX (by intro i _; simp only [hX, blR, wk]; omega), Function.update_self, h3,
      Function.update_of_ne (show hX ≠ blU l (j + 1) by simp only [hX, blU, wk]; omega),
      Function.update_of_ne (show hX ≠ wk 3 by decide), hX1,
      Function.update_of_ne (show blU l 0 ≠ blU l (j + 1) by simp only [blU, wk]; omega),
      Function.update_of_ne (show blU l 0 ≠ wk 3 by simp only [blU, wk]; omega),
      b3 (blU l 0) (by intro i' _; simp only [blR, blU, wk]; omega), hUj 0 (by omega)]
    funext x; simp
  have hx2 : s2.h (blR 0) = c0 - B (s2.h hX) := by
    rw [hR2 0 (by omega), hU2 0 (by omega), hX2, map_add, map_smul, hJ.x]
    abel
  have hP2 : s2.h (wk 1) = x0 := by
    rw [b3 _ (by intro i' _; simp only [blR, wk]; omega), Function.update_of_ne (by decide),
      Function.update_of_ne (by simp only [blU, wk]; omega), Function.update_of_ne (by decide), hP1]
  have hRr : ∀ i, i < j → s2.h (blR (i + 1)) = B (s2.h (blR i)) := by
    intro i hi
    rw [hR2 i (by omega), hR2 (i + 1) (by omega), map_sub, map_smul, ← hJ.r i hi, ← hU2 (i + 1) (by omega)]
  have hfin : ∀ s3 : MSt R S n, (s3.h hX = fun i => K.ps (s2.h hX) i + 1 * s2.h (wk 1) i) → ∀ v,
      v = resOf K o.conv t.bnrm (s2.h (blR 0)) → BlFin K B c0 x0 o t.bnrm v s3.h := by
    intro s3 h3 v hv
    exact ⟨s2.h hX, by rw [h3, hP2], by rw [hv, hx2]⟩
  have hlast : ∀ (w4 w5 : Fin n → R) (a : Arr S), w4 = K.ps (s2.h (blR j)) → w5 = K.mv w4 → a.size = s.hist.size → ∀ v,
      v = resOf K o.conv t.bnrm (s2.h (blR 0)) →
      (BlJ B c0 x0 l (j + 1) (Function.update (Function.update s2.h (wk 3) w4) (blR (j + 1)) w5) ∧
      v = resOf K o.conv t.bnrm ((Function.update (Function.update s2.h (wk 3) w4) (blR (j + 1)) w5) (blR 0))) := by
    intro w4 w5 a h4 h5 _ v hv
    have hk : ∀ k, k ≠ blR (j + 1) → k ≠ wk 3 → (Function.update (Function.update s2.h (wk 3) w4) (blR (j + 1)) w5) k = s2.h k := by
      intro k h1 h2
      rw [Function.update_of_ne h1, Function.update_of_ne h2]
    have hr : ∀ i, i ≤ j → (Function.update (Function.update s2.h (wk 3) w4) (blR (j + 1)) w5) (blR i) = s2.h (blR i) :=
      fun i _ => hk _ (by simp only [blR, wk]; omega) (by simp only [blR, wk]; omega)
    have hu : ∀ i, i ≤ j + 1 → (Function.update (Function.update s2.h (wk 3) w4) (blR (j + 1)) w5) (blU l i) = s2.h (blU l i) :=
      fun i _ => hk _ (by simp only [blR, blU, wk]; omega) (by simp only [blU, wk]; omega)
    refine ⟨⟨fun i hi => ?_, fun i hi => ?_, ?_, ?_⟩, ?_⟩
    · rw [hr i (by omega)]
      by_cases he : i = j
      · subst he
        rw [Function.update_self, h5, h4, hB]
      · rw [hr (i + 1) (by omega)]; exact hRr i (by omega)
    · rw [hu i (by omega), hu (i + 1) (by omega)]; exact hU2 i hi
    · rw [hr 0 (by omega), hk hX (by simp only [hX, blR, wk]; omega) (by decide)]; exact hx2
    · rw [hk _ (by simp only [blR, wk]; omega) (by decide)]; exact hP2
    · rw [hr 0 (by omega)]; exact hv
  refine Ok_getResidual fun v hv => Ok_pif (fun hm => Ok_hist (by rw [b1]; exact hi) ?_) fun hm => ?_
  · refine Ok_pif (fun hle => Ok_pif (fun _ => Ok_hist (by rw [b1]; exact hi) ?_) fun h => absurd hm.2 h) fun hle => ?_
    · refine Ok_pbind ((blFinish_ok K _).mono ?_)
      rintro ⟨_, s3⟩ ⟨e1, e3, -⟩
      simp only at e1 e3
      refine Ok_ret ⟨by simp only; rw [e1, b1]; rfl, rfl, .inl ⟨rfl, hfin _ e3 v hv⟩⟩
    · refine Ok_vop fun w4 h4 => Ok_vop fun w5 h5 => Ok_ret ⟨by simp only; rw [b1]; rfl, ?_⟩
      simp only [VOp.dst, VOp.val] at h4 h5 ⊢
      rw [Function.update_self] at h5
      exact hlast w4 w5 s.hist h4 h5 rfl v hv
  · refine Ok_pif (fun hle => Ok_pif (fun hm2 => Ok_hist (by rw [b1]; exact hi) ?_) fun hm2 => ?_) fun hle => ?_
    · refine Ok_pbind ((blFinish_ok K _).mono ?_)
      rintro ⟨_, s3⟩ ⟨e1, e3, -⟩
      simp only at e1 e3
      refine Ok_ret ⟨by simp only; rw [e1, b1]; rfl, rfl, .inl ⟨rfl, hfin _ e3 v hv⟩⟩
    · refine Ok_pbind ((blFinish_ok K _).mono ?_)
      rintro ⟨_, s3⟩ ⟨e1, e3, -⟩
      simp only at e1 e3
      refine Ok_ret ⟨by simp only; rw [e1, b1], rfl, .inl ⟨rfl, hfin _ e3 v hv⟩⟩
    · refine Ok_vop fun w4 h4 => Ok_vop fun w5 h5 => Ok_ret ⟨by simp only; rw [b1], ?_⟩
      simp only [VOp.dst, VOp.val] at h4 h5 ⊢
      rw [Function.update_self] at h5
      exact hlast w4 w5 s.hist h4 h5 rfl v hv

/-- one pass -/
theorem blBody_res (K : Kit R S n) (B : (Fin n → R) →ₗ[R] (Fin n → R)) (hB : ∀ v, B v = K.mv (K.ps v))
    (c0 x0 : Fin n → R) (l : ℕ) (hl : 1 ≤ l) (o : Opts R S) (t : Tols S) (junk : S) (iter : ℕ)
    (p : (R × R × R × Arr (Option R)) × S) (s : MSt R S n) (hi : iter + l < s.hist.size)
    (hp : p.1.2.2.2.size = (l + 1) * (4 + l + 1)) (hJ : BlJ B c0 x0 l 0 s.h)
    (hv : (iter = 0 ∧ p.2 = junk) ∨ p.2 = resOf K o.conv t.bnrm (s.h (blR 0))) :
    Ok ((blBody l o t iter p).run K s) fun r => r.2.hist.size = s.hist.size ∧
      match r.1 with
      | .inl q => q.1.2.2.2.size = (l + 1) * (4 + l + 1) ∧ BlJ B c0 x0 l 0 r.2.h ∧
          q.2 = resOf K o.conv t.bnrm (r.2.h (blR 0))
      | .inr out => out.ret ≠ .maxiter ∧ (BlFin K B c0 x0 o t.bnrm out.resid r.2.h ∨
          (out.ret = .breakdown ∧ out.iter = 1 ∧ out.resid = junk)) := by
  obtain ⟨⟨alpha, omega, rho0, a⟩, nrm2⟩ := p
  unfold blBody
  refine Ok_pbind (Ok_forIter (lo := 0) (fun j (p : BlSt R × S) s' => s'.hist.size = s.hist.size ∧ BlJ B c0 x0 l j s'.h ∧
    ((iter + j = 0 ∧ p.2 = junk) ∨ p.2 = resOf K o.conv t.bnrm (s'.h (blR 0)))) l 0 _ s ⟨rfl, hJ, hv⟩ ?_ ?_)
  · rintro j q s' - hj ⟨hs, hJ, hv⟩
    rw [Nat.zero_add] at hj
    refine (blBicg_res K B hB c0 x0 l o t _ j hj q s' (by omega) hJ).mono ?_
    rintro ⟨q' | out, s2⟩ ⟨h1, h⟩
    · exact ⟨h1.trans hs, h.1, .inr h.2⟩
    · refine Ok_ret ⟨h1.trans hs, ?_⟩
      obtain ⟨hit, ⟨h2, h3⟩ | ⟨h2, h3, h4⟩⟩ := h
      · exact ⟨by rw [h2]; simp, .inl h3⟩
      · refine ⟨by rw [h2]; simp, ?_⟩
        rcases hv with ⟨hv1, hv2⟩ | hv
        · exact .inr ⟨h2, by omega, by rw [h3, hv2]⟩
        · exact .inl ⟨s'.h hX, h4, by rw [h3, hv, hJ.x]⟩
  · rintro ⟨g, v⟩ s' ⟨hs, hJ, -⟩
    rw [Nat.zero_add] at hJ
    refine Ok_pbind (((blScalars_ok K l hl a s' hp).conj (blScalars_res K l hl a s' hp)).mono ?_)
    rintro ⟨⟨a', om⟩, s2⟩ ⟨⟨e1, e2, e3, e4⟩, e5, e6, e7⟩
    simp only at e1 e2 e3 e4 e5 e6 e7
    refine Ok_pbind (((blUpdate_ok K l hl a' s2 e3 e4).conj (blUpdate_res K l hl a' s2 e3 e4)).mono ?_)
    rintro ⟨_, s3⟩ ⟨⟨f1, f2⟩, f3, f4⟩
    simp only at f1 f2 f3 f4
    have hR0 : s2.h (blR 0) = s'.h (blR 0) := e2 _ (by intro j _ _; simp only [blR, wk]; omega)
    have hX0 : s2.h hX = s'.h hX := e2 _ (by intro j _ _; simp only [hX, blR, wk]; omega)
    have hP0 : s3.h (wk 1) = x0 := by
      rw [f2 _ (by decide) (by simp only [blR, wk]; omega) (by simp only [blU, wk]; omega),
        e2 _ (by intro j _ _; simp only [blR, wk]; omega)]
      exact hJ.p
    have hmr := bl_mr B l hl (fun i => s'.h (blR i)) (fun i => s2.h (blR i)) (bt l a') (bg l a') (bg1 l a') (bg2 l a')
      hJ.r e5 e6 e7
    have hx : s3.h (blR 0) = c0 - B (s3.h hX) := by
      rw [f4, f3, map_add, hR0, hmr, hX0, hJ.x]
      abel
    have hJ' : BlJ B c0 x0 l 0 s3.h := ⟨by omega, by omega, hx, hP0⟩
    refine Ok_checkResid (by rw [f1, e1, hs]; exact hi) fun w a2 hw hr => Ok_pif (fun hle => ?_) fun hle => Ok_ret ?_
    · refine Ok_pbind ((blFinish_ok K _).mono ?_)
      rintro ⟨_, s4⟩ ⟨g1, g2, -⟩
      simp only at g1 g2
      refine Ok_ret ⟨by simp only; rw [g1, hr.size, f1, e1, hs], by simp, .inl ⟨s3.h hX, by simp only; rw [g2, hP0], ?_⟩⟩
      simp only
      rw [hw, ← hx]
    · exact ⟨by simp only; rw [hr.size, f1, e1, hs], e3, hJ', hw⟩

/-- **C25: what `lis_bicgstabl` reports** (exact arithmetic, `A` and the preconditioner linear) -/
theorem lisBicgstabl_residual (l : ℕ) (hl : 1 ≤ l) (junk : S) (K : Kit R S n) (hlin : K.Linear) (hps : K.PsLinear)
    (o : Opts R S) (s : MSt R S n) (hsz : (o.maxiter / l + 1) * l < s.hist.size) (hz : o.initZero → s.h hX = 0) :
    Ok ((lisBicgstabl l junk o).run K s) fun r => BlReports K o junk s r.2 r.1 := by
  have e := r0Of_eq hlin hz
  unfold lisBicgstabl
  simp only [Prog.run_bind, run_initialResidual K o (blR 0) (by decide) (by decide), Option.bind_some]
  by_cases hinit : initialResOf K o s.h ≤ RealOps.fabs o.tol
  · rw [if_pos hinit]
    refine Ok_ret (.inl ⟨rfl, rfl, hinit, ?_⟩)
    rw [e]
    unfold trueRes
    simp only
    rw [Function.update_of_ne (show hB ≠ blR 0 by decide), Function.update_of_ne (show hX ≠ blR 0 by decide)]
  · rw [if_neg hinit]
    simp only [vCopy, vSetAll]
    let B : (Fin n → R) →ₗ[R] (Fin n → R) := (linMap K.mv hlin).comp (linMap K.ps hps)
    have hBB : ∀ v, B v = K.mv (K.ps v) := fun v => rfl
    refine Ok_setShadow fun w0 => Ok_vop fun w1 _ => Ok_vop fun w2 h2 => Ok_vop fun w3 _ => Ok_pbind (Ok_forIter (lo := 0)
      (fun k (p : (R × R × R × Arr (Option R)) × S) s' => s'.hist.size = s.hist.size ∧
        p.1.2.2.2.size = (l + 1) * (4 + l + 1) ∧
        BlJ B (trueRes K s.h + B (s.h hX)) (s.h hX) l 0 s'.h ∧
        ((k = 0 ∧ p.2 = junk) ∨ p.2 = resOf K o.conv (bnrmOf K o s.h) (s'.h (blR 0)))) _ 0 _ _
        ⟨rfl, rfl, ⟨by omega, by omega, ?_, ?_⟩, .inl ⟨rfl, rfl⟩⟩ ?_ ?_)
    · simp only [VOp.dst]
      rw [Function.update_of_ne (by simp only [blR, blU, wk]; omega), Function.update_of_ne (by decide),
        Function.update_of_ne (by decide), Function.update_of_ne (by decide), Function.update_self,
        Function.update_of_ne (by simp only [hX, blU, wk]; omega), Function.update_of_ne (by decide),
        Function.update_of_ne (by decide), Function.update_of_ne (by decide), Function.update_of_ne (by decide), e]
      abel
    · simp only [VOp.dst, VOp.val] at h2 ⊢
      rw [Function.update_of_ne (by simp only [blU, wk]; omega), Function.update_self, h2,
        Function.update_of_ne (by decide), Function.update_of_ne (by decide), Function.update_of_ne (by decide)]
    · rintro k p s' - hk ⟨hs, hp, hJ, hv⟩
      have hle : k * l + l ≤ (o.maxiter / l + 1) * l := by
        have := Nat.mul_le_mul_right l (show k + 1 ≤ o.maxiter / l + 1 by omega)
        rw [Nat.add_mul k 1 l] at this; omega
      refine (blBody_res K B hBB _ _ l hl o ⟨bnrmOf K o s.h, tolOf K o s.h⟩ junk (k * l) p s' (by omega) hp hJ ?_).mono ?_
      · rcases hv with ⟨h1, h2⟩ | h
        · exact .inl ⟨by rw [h1]; simp, h2⟩
        · exact .inr h
      rintro ⟨q | out, s2⟩ ⟨h1, h⟩
      · exact ⟨h1.trans hs, h.1, h.2.1, .inr h.2.2⟩
      · refine Ok_ret ?_
        obtain ⟨h2, ⟨y, hy, hr⟩ | h3⟩ := h
        · refine .inr (.inl ⟨h2, ?_⟩)
          simp only at hr ⊢
          rw [hr]
          congr 1
          simp only at hy
          rw [hy]
          have e2 : (fun i => K.ps y i + 1 * s.h hX i) = K.ps y + s.h hX := by funext i; simp
          have e3 : K.mv (K.ps y + s.h hX) = K.mv (K.ps y) + K.mv (s.h hX) := (linMap K.mv hlin).map_add _ _
          rw [e2, e3, hBB, hBB]
          funext i
          simp only [trueRes, Pi.add_apply, Pi.sub_apply]
          ring
        · exact .inr (.inr (.inr h3))
    · rintro p s' ⟨-, -, hJ, hv⟩
      rw [Nat.zero_add] at hv
      refine Ok_ret (.inr (.inr (.inl ⟨rfl, ?_⟩)))
      rcases hv with ⟨h1, -⟩ | h
      · exact absurd h1 (Nat.succ_ne_zero _)
      · simp only
        rw [h, hJ.x]
        congr 1
        have e2 : (fun i => K.ps (fun i => s'.h hX i - s.h hX i) i + s.h hX i) = K.ps (s'.h hX - s.h hX) + s.h hX := rfl
        have e3 : K.mv (K.ps (s'.h hX - s.h hX) + s.h hX) = K.mv (K.ps (s'.h hX - s.h hX)) + K.mv (s.h hX) :=
          (linMap K.mv hlin).map_add _ _
        have e4 : B (s'.h hX - s.h hX) = B (s'.h hX) - B (s.h hX) := map_sub _ _ _
        rw [e2, e3, ← hBB, e4]
        funext i
        simp only [trueRes, Pi.add_apply, Pi.sub_apply]
        ring

/-- **C25**: with a zero initial guess every exit of `lis_bicgstabl` but `LIS_MAXITER` reports the residual of the
returned `x` (`ReportsTrue`). -/
theorem lisBicgstabl_reports (l : ℕ) (hl : 1 ≤ l) (junk : S) (K : Kit R S n) (hlin : K.Linear) (hps : K.PsLinear)
    (o : Opts R S) (s : MSt R S n) (hsz : (o.maxiter / l + 1) * l < s.hist.size) (hz : s.h hX = 0) :
    Ok ((lisBicgstabl l junk o).run K s) fun r => r.1.ret ≠ .maxiter → ReportsTrue K o junk s r.2 r.1 := by
  obtain ⟨r, hr, h⟩ := lisBicgstabl_residual l hl junk K hlin hps o s hsz fun _ => hz
  obtain ⟨r', hr', h'⟩ := lisBicgstabl_status l hl junk K o s hsz
  rw [hr] at hr'; cases hr'
  refine ⟨r, hr, fun hm => ?_⟩
  rcases h with h | ⟨-, h⟩ | ⟨h, -⟩ | ⟨h1, h2, h3⟩
  · exact .inl h
  · refine .inr (.inl ?_)
    rw [h]
    congr 1
    have e1 : K.ps (s.h hX) = 0 := by rw [hz]; exact (linMap K.ps hps).map_zero
    have e2 : K.mv 0 = 0 := (linMap K.mv hlin).map_zero
    rw [e1, e2]
    unfold trueRes
    rw [h'.b]
    funext i; simp
  · exact absurd h hm
  · exact .inr (.inr ⟨by rw [h1]; simp, h3, .inr h2⟩)

end Lis
