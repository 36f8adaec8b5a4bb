import Verif.Lemmas.CgExact
import Verif.Props.SolverDoc
import Mathlib.Data.Real.Star

/-!
# C44: on a symmetric positive definite system CG cannot fail

Exact arithmetic, any symmetric positive definite preconditioner: no breakdown, at most `n` iterations, the error in the
energy norm never grows.
-/

namespace Lis
variable {R S : Type} {n : ℕ} [Field R] [LinearOrder R] [IsStrictOrderedRing R] [Star R] [RealOps S]

open Matrix

omit [LinearOrder R] [IsStrictOrderedRing R] [Star R] [RealOps S] in
theorem Kit.Exact.linear {K : Kit R S n} {A M : Matrix (Fin n) (Fin n) R} (hK : K.Exact A M) : K.Linear := by
  intro a x y
  rw [hK.mv, hK.mv, hK.mv]
  have : (fun i => x i + a * y i) = x + a • y := rfl
  rw [this, mulVec_add, mulVec_smul]
  rfl

/-- the state of CG before iteration `i` -/
structure CgInv (A M : Matrix (Fin n) (Fin n) R) (xs : Fin n → R) (e0 : R) (i : ℕ) (rho : R) (h : MHeap R n) : Prop where
  seq : ∃ r p, CgSeq A M (i - 1) r p ∧ h (wk 2) = r (i - 1) ∧ h (wk 3) = p (i - 1) ∧
    (1 < i → rho = r (i - 2) ⬝ᵥ M *ᵥ r (i - 2))
  ne : h (wk 2) ≠ 0
  res : h (wk 2) = A *ᵥ xs - A *ᵥ h hX
  en : energy A xs (h hX) ≤ e0

omit [RealOps S] in
/-- one iteration -/
theorem cgBody_exact [RealOps S] {K : Kit R S n} {A M : Matrix (Fin n) (Fin n) R} (hK : K.Exact A M) (hA : Spd A) (hM : Spd M)
    {op : ℕ → ℕ → VRed} (hop : op = .dot ∨ op = .nhdot) {o : Opts R S} {t : Tols S} (h0 : resOf K o.conv t.bnrm 0 ≤ t.tol)
    {xs : Fin n → R} {e0 : R} {i : ℕ} (h1 : 1 ≤ i) (st : R × S) (s : MSt R S n) (hi : i < s.hist.size)
    (hI : CgInv A M xs e0 i st.1 s.h) :
    Ok ((cgBody (fun x y => .red (op x y) .ret) o t i st).run K s) fun r => r.2.hist.size = s.hist.size ∧ i ≤ n ∧
      match r.1 with
      | .inl st' => CgInv A M xs e0 (i + 1) st'.1 r.2.h
      | .inr out => out.ret = .success ∧ out.iter = i ∧ energy A xs (r.2.h hX) ≤ e0 := by
  obtain ⟨⟨r, p, hs, er, ep, erho⟩, hne, hres, hen⟩ := hI
  have hd : ∀ x y (h : MHeap R n), (op x y).run K h = h x ⬝ᵥ h y := by
    intro x y h
    rcases hop with rfl | rfl
    · exact hK.dot _ _
    · exact hK.nhdot _ _
  have hne' : r (i - 1) ≠ 0 := er ▸ hne
  obtain ⟨hpp, hpr, hrho, hs'⟩ := hs.step hA hM hne'
    (b := (r (i - 1) ⬝ᵥ M *ᵥ r (i - 1)) / st.1) (p' := M *ᵥ r (i - 1) + ((r (i - 1) ⬝ᵥ M *ᵥ r (i - 1)) / st.1) • p (i - 1))
    (by intro hk; rw [erho (by omega), show i - 1 - 1 = i - 2 by omega]) rfl rfl
  have hin : i ≤ n := by have := hs'.card hA; omega
  obtain ⟨p', hp'⟩ : ∃ p', p' = M *ᵥ r (i - 1) + ((r (i - 1) ⬝ᵥ M *ᵥ r (i - 1)) / st.1) • p (i - 1) := ⟨_, rfl⟩
  rw [← hp'] at hpp hpr hs'
  unfold cgBody
  simp only [vXpay, vAxpy, mPsolve, mMatvec]
  refine Ok_vop fun z hz => ?_
  refine Ok_red fun rho hr => ?_
  refine Ok_vop fun pn hpn => ?_
  refine Ok_vop fun q hq => ?_
  refine Ok_red fun pq hpq => ?_
  rw [hd] at hr hpq
  vlook at hz; vlook at hr; vlook at hpn; vlook at hq; vlook at hpq
  rw [hK.ps, er] at hz
  rw [er, hz] at hr
  have hpn' : pn = p' := by
    rw [hpn, hp', ep, hz, hr]; rfl
  rw [hK.mv, hpn'] at hq
  rw [hpn', hq] at hpq
  refine Ok_pif (fun hb => absurd (hpq.symm.trans hb) hpp.ne') fun _ => ?_
  refine Ok_vop fun xn hxn => ?_
  refine Ok_vop fun rn hrn => ?_
  vlook at hxn; vlook at hrn
  have hrn' : rn = r (i - 1) - ((r (i - 1) ⬝ᵥ M *ᵥ r (i - 1)) / (p' ⬝ᵥ A *ᵥ p')) • A *ᵥ p' := by
    rw [hrn, er, hq, hr, hpq]
    funext j
    simp only [Pi.sub_apply, Pi.smul_apply, smul_eq_mul]
    ring
  have hxn' : xn = s.h hX + ((r (i - 1) ⬝ᵥ M *ᵥ r (i - 1)) / (p' ⬝ᵥ A *ᵥ p')) • p' := by
    rw [hxn, hpn', hr, hpq]; rfl
  have hen' : energy A xs xn ≤ e0 := by
    rw [hxn']
    exact (energy_step hA (er.symm.trans hres) hpp hpr).trans hen
  refine Ok_checkResid hi fun v a hv ha => ?_
  have hsz := Recorded.size ha
  refine Ok_pif (fun hle => Ok_ret ⟨hsz, hin, rfl, rfl, ?_⟩) (fun hle => Ok_ret ⟨hsz, hin, ?_⟩)
  · vlook
    exact hen'
  · have e1 : i + 1 - 1 = i - 1 + 1 := by omega
    refine ⟨⟨_, _, e1 ▸ hs', ?_, ?_, ?_⟩, ?_, ?_, ?_⟩
    · vlook
      exact hrn'
    · vlook
      exact hpn'
    · intro _
      rw [show i + 1 - 2 = i - 1 by omega, Function.update_of_ne (by omega)]
      exact hr
    · vlook
      intro hz0
      apply hle
      rw [hv]
      vlook
      rw [hz0]
      exact h0
    · vlook
      rw [hrn', hxn', ← er, hres, mulVec_add, mulVec_smul]
      abel
    · vlook
      exact hen'

/-- **C44.** `lis_cg` (and `lis_cocg`) on a symmetric positive definite system, in exact arithmetic, with any symmetric
positive definite preconditioner: the result is success, or all `maxiter` iterations were made and `maxiter < n`; a
success is reported after at most `n` iterations; and the energy norm of the error of the returned `x` is at most that of
the initial guess.  `h0`, `h0'`: the zero residual passes the convergence test. -/
theorem cgProg_exact {K : Kit R S n} {A M : Matrix (Fin n) (Fin n) R} (hK : K.Exact A M) (hA : Spd A) (hM : Spd M)
    {op : ℕ → ℕ → VRed} (hop : op = .dot ∨ op = .nhdot) (o : Opts R S) (junk : S) (s : MSt R S n)
    (hsz : o.maxiter < s.hist.size) (hz : o.initZero → s.h hX = 0) {xs : Fin n → R} (hxs : A *ᵥ xs = s.h hB)
    (h0 : resOf K o.conv (bnrmOf K o s.h) 0 ≤ tolOf K o s.h)
    (h0' : r0Of K o s.h = 0 → initialResOf K o s.h ≤ RealOps.fabs o.tol) :
    Ok ((cgProg (fun x y => .red (op x y) .ret) junk o).run K s) fun r =>
      (r.1.ret = .success ∧ (r.1.iter ≤ n ∨ r.1.iter = 1) ∨ r.1.ret = .maxiter ∧ o.maxiter < n) ∧
      energy A xs (r.2.h hX) ≤ energy A xs (s.h hX) := by
  unfold cgProg
  simp only [Prog.run_bind, run_initialResidual K o (wk 2) (by decide) (by decide), Option.bind_some]
  have e := r0Of_eq hK.linear hz
  split
  · rename_i out heq
    split at heq
    · cases heq
      simp only [Prog.run_pure, Ok_some]
      refine ⟨Or.inl ⟨trivial, Or.inr trivial⟩, ?_⟩
      rw [Function.update_of_ne (by decide)]
    · cases heq
  · rename_i t heq
    split at heq
    · cases heq
    · cases heq
      rename_i hnot
      simp only [vSetAll]
      refine Ok_vop fun w hw => ?_
      vlook at hw
      simp only [mainLoop, Prog.run_bind, Ok_obind]
      have hr0 : r0Of K o s.h = A *ᵥ xs - A *ᵥ s.h hX := by
        rw [e, hxs]; unfold trueRes; rw [hK.mv]; rfl
      refine Ok_forIter (lo := 1) (fun i st s' => s'.hist.size = s.hist.size ∧ i ≤ max n 0 + 1 ∧
        CgInv A M xs (energy A xs (s.h hX)) i st.1 s'.h) o.maxiter 1 (1, junk) _ ⟨rfl, by omega, ?_⟩ ?_ ?_
      · refine ⟨⟨_, _, CgSeq.start (r0Of K o s.h), ?_, ?_, by omega⟩, ?_, ?_, ?_⟩
        · vlook
        · vlook; rw [hw]; rfl
        · vlook; intro h; exact hnot (h0' h)
        · vlook; exact hr0
        · vlook; exact le_rfl
      · rintro j st s' h1 h2 ⟨hs1, -, hI⟩
        obtain ⟨r, hr, hs2, hn, hrest⟩ := cgBody_exact hK hA hM hop (t := ⟨bnrmOf K o s.h, tolOf K o s.h⟩) h0 h1 st s'
          (by omega) hI
        refine ⟨r, hr, ?_⟩
        rcases r with ⟨st' | out, s2⟩
        · exact ⟨hs2.trans hs1, by omega, hrest⟩
        · simp only at hrest ⊢
          simp only [Prog.run_pure, Ok_some]
          exact ⟨Or.inl ⟨hrest.1, Or.inl (by rw [hrest.2.1]; exact hn)⟩, hrest.2.2⟩
      · rintro st s' ⟨hs1, -, hI⟩
        simp only [Prog.run_pure, Ok_some]
        refine ⟨Or.inr ⟨trivial, ?_⟩, hI.en⟩
        obtain ⟨⟨r, p, hs, er, ep, erho⟩, hne, -, -⟩ := hI
        obtain ⟨-, -, -, hs'⟩ := hs.step hA hM (er ▸ hne)
          (b := (r (1 + o.maxiter - 1) ⬝ᵥ M *ᵥ r (1 + o.maxiter - 1)) / st.1) (p' := _) (r' := _)
          (by intro hk; rw [erho (by omega), show 1 + o.maxiter - 1 - 1 = 1 + o.maxiter - 2 by omega]) rfl rfl
        have := hs'.card hA
        omega

/-- the zero residual passes the convergence test -/
theorem zero_resOf {K : Kit ℝ ℝ n} (h1 : ∀ v, 0 ≤ K.nrm1 v) (z2 : K.nrm2 0 = 0) (z1 : K.nrm1 0 = 0)
    {o : Opts ℝ ℝ} (ht : 0 ≤ o.tol) (hw : o.conv = .nrm1B → o.tol ≤ o.tolW) {h : MHeap ℝ n} :
    resOf K o.conv (bnrmOf K o h) 0 ≤ tolOf K o h := by
  unfold resOf tolOf
  cases hc : o.conv <;> simp only
  · rw [z2, zero_mul]; exact ht
  · rw [z2, zero_mul]; exact ht
  · rw [z1]
    have := mul_nonneg (h1 (h hB)) (ht.trans (hw hc))
    linarith

/-- … and the test of the initial residual -/
theorem zero_initialRes {K : Kit ℝ ℝ n} (z2 : K.nrm2 0 = 0) (z1 : K.nrm1 0 = 0) {o : Opts ℝ ℝ} {h : MHeap ℝ n}
    (h0 : r0Of K o h = 0) : initialResOf K o h ≤ RealOps.fabs o.tol := by
  unfold initialResOf
  rw [h0]
  have : (0 : ℝ) ≤ RealOps.fabs o.tol := abs_nonneg _
  cases o.conv <;> simp only
  · rw [z2, zero_mul]; exact this
  · rw [z2, zero_mul]; exact this
  · rw [z1, zero_mul]; exact this

/-- **C44, in the documented terms** (real numbers): with tolerances that are not negative and `maxiter ≥ n`, CG returns
success after at most `n` iterations (1 if the initial guess is already good enough), the returned `x` meets the
convergence condition asked for, and its error in the energy norm is not larger than that of the initial guess. -/
theorem lisCg_spd {K : Kit ℝ ℝ n} {A M : Matrix (Fin n) (Fin n) ℝ} (hK : K.Exact A M) (hA : Spd A) (hM : Spd M)
    (h2 : ∀ v, 0 ≤ K.nrm2 v) (h1 : ∀ v, 0 ≤ K.nrm1 v) (z2 : K.nrm2 0 = 0) (z1 : K.nrm1 0 = 0)
    (o : Opts ℝ ℝ) (ht : 0 ≤ o.tol) (hw : o.conv = .nrm1B → o.tol ≤ o.tolW) (junk : ℝ) (s : MSt ℝ ℝ n)
    (hsz : o.maxiter < s.hist.size) (hmax : n ≤ o.maxiter) (hz : o.initZero → s.h hX = 0) {xs : Fin n → ℝ}
    (hxs : A *ᵥ xs = s.h hB) :
    Ok ((lisCg junk o).run K s) fun r => r.1.ret = .success ∧ (r.1.iter ≤ n ∨ r.1.iter = 1) ∧
      MeetsTol K o (s.h hB) (s.h hX) (r.2.h hX) ∧ energy A xs (r.2.h hX) ≤ energy A xs (s.h hX) := by
  have h0 : resOf K o.conv (bnrmOf K o s.h) 0 ≤ tolOf K o s.h := zero_resOf h1 z2 z1 ht hw
  have h0' : r0Of K o s.h = 0 → initialResOf K o s.h ≤ RealOps.fabs o.tol := zero_initialRes z2 z1
  have hA' := cgProg_exact hK hA hM (op := .dot) (Or.inl rfl) o junk s hsz hz hxs h0 h0'
  have hB := lisCg_status K o junk s hsz
  have hC := lisCg_residual K hK.linear o junk s hsz hz
  refine ((hA'.conj hB).conj hC).mono ?_
  rintro ⟨out, s'⟩ ⟨⟨⟨hr, he⟩, hc⟩, ht'⟩
  rcases hr with ⟨hr, hi⟩ | ⟨-, hlt⟩
  · exact ⟨hr, hi, meetsTol_of_success hK.linear h2 h1 ht hw hz hc ht' hr, he⟩
  · omega

end Lis
