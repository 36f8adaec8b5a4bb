import Verif.Lemmas.CrExact
import Verif.Props.CgExact

/-!
# C46: on a symmetric positive definite system CR cannot fail either, and the residual never grows
-/

namespace Lis
variable {R S : Type} {n : ℕ} [Field R] [LinearOrder R] [IsStrictOrderedRing R] [Star R] [RealOps S]

open Matrix

/-- the state of CR before iteration `i` -/
structure CrInv (A M : Matrix (Fin n) (Fin n) R) (xs : Fin n → R) (e0 : R) (i : ℕ) (h : MHeap R n) : Prop where
  seq : ∃ r p b, CgSeq (A * M * A) A⁻¹ (i - 1) r p ∧ r (i - 1) = A *ᵥ (M *ᵥ h (wk 2)) ∧
    (1 < i → b = (r (i - 1) ⬝ᵥ A⁻¹ *ᵥ r (i - 1)) / (r (i - 2) ⬝ᵥ A⁻¹ *ᵥ r (i - 2))) ∧
    h (wk 3) = M *ᵥ h (wk 2) + b • p (i - 1)
  z : h (wk 0) = M *ᵥ h (wk 2)
  q : h (wk 1) = A *ᵥ h (wk 3)
  ne : h (wk 2) ≠ 0
  res : h (wk 2) = A *ᵥ xs - A *ᵥ h hX
  en : energy (A * M * A) xs (h hX) ≤ e0

omit [RealOps S] in
/-- one iteration -/
theorem crBody_exact [RealOps S] {K : Kit R S n} {A M : Matrix (Fin n) (Fin n) R} (hK : K.Exact A M) (hA : Spd A) (hM : Spd M)
    {op : ℕ → ℕ → VRed} (hop : op = .dot ∨ op = .nhdot) {o : Opts R S} {t : Tols S} (h0 : resOf K o.conv t.bnrm 0 ≤ t.tol)
    {xs : Fin n → R} {e0 : R} {i : ℕ} (h1 : 1 ≤ i) (st : Unit × S) (s : MSt R S n) (hi : i < s.hist.size)
    (hI : CrInv A M xs e0 i s.h) :
    Ok ((crBody (fun x y => .red (op x y) .ret) o t i st).run K s) fun r => r.2.hist.size = s.hist.size ∧ i ≤ n ∧
      match r.1 with
      | .inl _ => CrInv A M xs e0 (i + 1) r.2.h
      | .inr out => out.ret = .success ∧ out.iter = i ∧ energy (A * M * A) xs (r.2.h hX) ≤ e0 := by
  obtain ⟨⟨r, p, b, hs, er, hb, ep⟩, ez, eq, hne, hres, hen⟩ := hI
  have hB := hA.sandwich hM
  have hN := hA.inv
  have hd : ∀ x y (h : MHeap R n), (op x y).run K h = h x ⬝ᵥ h y := by
    intro x y h
    rcases hop with rfl | rfl
    · exact hK.dot _ _
    · exact hK.nhdot _ _
  have hne' : r (i - 1) ≠ 0 := fun h => hne (hM.inj (hA.inj (er.symm.trans h)))
  have eNr : A⁻¹ *ᵥ r (i - 1) = M *ᵥ s.h (wk 2) := by rw [er, hA.inv_mul]
  obtain ⟨p', hp'⟩ : ∃ p', p' = s.h (wk 3) := ⟨_, rfl⟩
  have hp'' : p' = A⁻¹ *ᵥ r (i - 1) + b • p (i - 1) := by rw [hp', ep, eNr]
  obtain ⟨al, hal⟩ : ∃ al, al = (r (i - 1) ⬝ᵥ A⁻¹ *ᵥ r (i - 1)) / (p' ⬝ᵥ (A * M * A) *ᵥ p') := ⟨_, rfl⟩
  obtain ⟨hpp, hpr, hrho, hs'⟩ := hs.step hB hN hne' (b := b) (p' := p')
    (r' := r (i - 1) - al • (A * M * A) *ᵥ p')
    (by intro hk; rw [hb (by omega), show i - 1 - 1 = i - 2 by omega]) hp'' (by rw [hal])
  have hin : i ≤ n := by have := hs'.card hB; omega
  have hpos : 0 < al := hal ▸ div_pos hrho hpp
  unfold crBody
  simp only [vXpay, vAxpy, mPsolve, mMatvec]
  refine Ok_vop fun qt hqt => ?_
  refine Ok_red fun rho hr => ?_
  rw [hd] at hr
  vlook at hqt; vlook at hr
  rw [hK.ps, eq, ← hp'] at hqt
  have hrho' : rho = p' ⬝ᵥ (A * M * A) *ᵥ p' := by
    rw [hr, eq, ← hp', hqt, hA.sandwich_dot, dotProduct_comm]
  refine Ok_pif (fun hb => absurd (hrho'.symm.trans hb) hpp.ne') fun _ => ?_
  refine Ok_red fun rq hrq => ?_
  rw [hd] at hrq
  vlook at hrq
  have hrq' : rq = r (i - 1) ⬝ᵥ A⁻¹ *ᵥ r (i - 1) := by
    rw [hrq, hqt, hM.swap, ← hpr, er, hA.swap, dotProduct_comm]
  have hal' : rq / rho = al := by rw [hrq', hrho', hal]
  rw [hal']
  refine Ok_vop fun xn hxn => ?_
  refine Ok_vop fun rn hrn => ?_
  vlook at hxn; vlook at hrn
  have hrn' : rn = s.h (wk 2) - al • A *ᵥ p' := by
    rw [hrn, eq, ← hp']
    funext j
    simp only [Pi.sub_apply, Pi.smul_apply, smul_eq_mul]
    ring
  have hxn' : xn = s.h hX + al • p' := by
    rw [hxn, hp']; rfl
  have hen' : energy (A * M * A) xs xn ≤ e0 := by
    rw [hxn', hal]
    refine (energy_step hB (r := r (i - 1)) ?_ hpp hpr).trans hen
    rw [er, hres]
    simp only [← mulVec_mulVec, mulVec_sub]
  refine Ok_checkResid hi fun v a hv ha => ?_
  have hsz := Recorded.size ha
  refine Ok_pif (fun hle => Ok_ret ⟨hsz, hin, rfl, rfl, ?_⟩) fun hle => ?_
  · vlook
    exact hen'
  refine Ok_vop fun zn hzn => ?_
  refine Ok_vop fun az haz => ?_
  refine Ok_red fun zq hzq => ?_
  rw [hd] at hzq
  vlook at hzn; vlook at haz; vlook at hzq
  have hzn' : zn = M *ᵥ rn := by
    rw [hzn, ez, hqt, hrn', mulVec_sub, mulVec_smul]
    funext j
    simp only [Pi.sub_apply, Pi.smul_apply, smul_eq_mul]
    ring
  rw [hK.mv, hzn'] at haz
  have e1 : i + 1 - 1 = i - 1 + 1 := by omega
  have er' : r (i - 1) - al • (A * M * A) *ᵥ p' = A *ᵥ (M *ᵥ rn) := by
    rw [er, hrn']
    simp only [← mulVec_mulVec, mulVec_sub, mulVec_smul]
  obtain ⟨r2, hr2⟩ : ∃ r2, r2 = Function.update r (i - 1 + 1) (r (i - 1) - al • (A * M * A) *ᵥ p') := ⟨_, rfl⟩
  rw [← hr2] at hs'
  have hk : r2 (i - 1 + 1) = A *ᵥ (M *ᵥ rn) := by rw [hr2, Function.update_self, er']
  have hk0 : r2 (i - 1) = r (i - 1) := by rw [hr2, Function.update_of_ne (by omega)]
  have hbeta : -zq / rho = (r2 (i - 1 + 1) ⬝ᵥ A⁻¹ *ᵥ r2 (i - 1 + 1)) / (r2 (i - 1) ⬝ᵥ A⁻¹ *ᵥ r2 (i - 1)) := by
    have h3 : al * zq = - (r2 (i - 1 + 1) ⬝ᵥ A⁻¹ *ᵥ r2 (i - 1 + 1)) := by
      have hz := hs'.zr hN (j := i - 1) (by omega)
      rw [hk0, hk, hA.inv_mul] at hz
      rw [hk, hA.inv_mul, hzq, haz, hqt]
      have e5 : al • A *ᵥ (M *ᵥ (A *ᵥ p')) = r (i - 1) - A *ᵥ (M *ᵥ rn) := by
        rw [← er']; simp only [← mulVec_mulVec]; abel
      rw [dotProduct_comm, hA.swap, ← smul_eq_mul, ← dotProduct_smul, e5, dotProduct_sub, hz, zero_sub, dotProduct_comm]
    rw [hrho', hk0]
    have h4 : al * (p' ⬝ᵥ (A * M * A) *ᵥ p') = r (i - 1) ⬝ᵥ A⁻¹ *ᵥ r (i - 1) := by
      rw [hal]; exact div_mul_cancel₀ _ hpp.ne'
    rw [div_eq_div_iff hpp.ne' hrho.ne']
    linear_combination -(p' ⬝ᵥ (A * M * A) *ᵥ p') * h3 + zq * h4
  rw [hbeta]
  refine Ok_vop fun pn hpn => ?_
  refine Ok_vop fun qn hqn => ?_
  vlook at hpn; vlook at hqn
  refine Ok_ret ⟨hsz, hin, ⟨⟨r2, _, (r2 (i - 1 + 1) ⬝ᵥ A⁻¹ *ᵥ r2 (i - 1 + 1)) / (r2 (i - 1) ⬝ᵥ A⁻¹ *ᵥ r2 (i - 1)), e1 ▸ hs', ?_, fun _ => ?_, ?_⟩, ?_, ?_, ?_, ?_, ?_⟩⟩
  · rw [e1, hk]; vlook
  · rw [e1, show i + 1 - 2 = i - 1 by omega]
  · rw [e1, Function.update_self]
    vlook
    rw [hpn, hzn', hp']; rfl
  · vlook
    exact hzn'
  · vlook
    rw [hqn, hpn, haz, eq, hzn', ← hp']
    rw [show (fun j => (M *ᵥ rn) j + (r2 (i - 1 + 1) ⬝ᵥ A⁻¹ *ᵥ r2 (i - 1 + 1)) / (r2 (i - 1) ⬝ᵥ A⁻¹ *ᵥ r2 (i - 1)) * p' j) =
      M *ᵥ rn + ((r2 (i - 1 + 1) ⬝ᵥ A⁻¹ *ᵥ r2 (i - 1 + 1)) / (r2 (i - 1) ⬝ᵥ A⁻¹ *ᵥ r2 (i - 1))) • p' from rfl,
      mulVec_add, mulVec_smul]
    rfl
  · vlook
    intro hz0
    apply hle
    rw [hv]
    vlook
    rw [hz0]
    exact h0
  · vlook
    rw [hrn', hxn', hres, mulVec_add, mulVec_smul]
    abel
  · vlook
    exact hen'

omit [Star R] [RealOps S] in
theorem energy_residSq {A M : Matrix (Fin n) (Fin n) R} (hA : Spd A) {xs b : Fin n → R} (hxs : A *ᵥ xs = b)
    (x : Fin n → R) : energy (A * M * A) xs x = residSq A M b x := by
  unfold energy residSq
  rw [hA.sandwich_dot, ← hxs, mulVec_sub, ← neg_sub (A *ᵥ xs) (A *ᵥ x), mulVec_neg, neg_dotProduct_neg]

/-- **C46.** `lis_cr` (and `lis_cocr`) on a symmetric positive definite system, in exact arithmetic, with any symmetric
positive definite preconditioner `M`: the result is success, or all `maxiter` iterations were made and `maxiter < n`; a
success is reported after at most `n` iterations; and the residual of the returned `x`, in the norm of `M`, is at most
that of the initial guess. -/
theorem crProg_exact {K : Kit R S n} {A M : Matrix (Fin n) (Fin n) R} (hK : K.Exact A M) (hA : Spd A) (hM : Spd M)
    {op : ℕ → ℕ → VRed} (hop : op = .dot ∨ op = .nhdot) (o : Opts R S) (junk : S) (s : MSt R S n)
    (hsz : o.maxiter < s.hist.size) (hz : o.initZero → s.h hX = 0)
    (h0 : resOf K o.conv (bnrmOf K o s.h) 0 ≤ tolOf K o s.h)
    (h0' : r0Of K o s.h = 0 → initialResOf K o s.h ≤ RealOps.fabs o.tol) :
    Ok ((crProg (fun x y => .red (op x y) .ret) junk o).run K s) fun r =>
      (r.1.ret = .success ∧ (r.1.iter ≤ n ∨ r.1.iter = 1) ∨ r.1.ret = .maxiter ∧ o.maxiter < n) ∧
      residSq A M (s.h hB) (r.2.h hX) ≤ residSq A M (s.h hB) (s.h hX) := by
  obtain ⟨xs, hxs⟩ : ∃ xs, A *ᵥ xs = s.h hB :=
    ⟨A⁻¹ *ᵥ s.h hB, by rw [mulVec_mulVec, mul_nonsing_inv _ hA.unit, one_mulVec]⟩
  simp only [← energy_residSq hA hxs]
  unfold crProg
  simp only [Prog.run_bind, run_initialResidual K o (wk 2) (by decide) (by decide), Option.bind_some]
  have e := r0Of_eq hK.linear hz
  split
  · rename_i out heq
    split at heq
    · cases heq
      simp only [Prog.run_pure, Ok_some]
      refine ⟨Or.inl ⟨trivial, Or.inr trivial⟩, ?_⟩
      rw [Function.update_of_ne (by decide)]
    · cases heq
  · rename_i t heq
    split at heq
    · cases heq
    · cases heq
      rename_i hnot
      simp only [mPsolve, mMatvec, vCopy]
      refine Ok_vop fun p hp => ?_
      refine Ok_vop fun q hq => ?_
      refine Ok_vop fun z hz => ?_
      vlook at hp; vlook at hq; vlook at hz
      rw [hK.ps] at hp
      rw [hK.mv] at hq
      simp only [mainLoop, Prog.run_bind, Ok_obind]
      have hr0 : r0Of K o s.h = A *ᵥ xs - A *ᵥ s.h hX := by
        rw [e, hxs]; unfold trueRes; rw [hK.mv]; rfl
      refine Ok_forIter (lo := 1) (fun i st s' => s'.hist.size = s.hist.size ∧ i ≤ n + 1 ∧
        CrInv A M xs (energy (A * M * A) xs (s.h hX)) i s'.h) o.maxiter 1 ((), junk) _ ⟨rfl, by omega, ?_⟩ ?_ ?_
      · refine ⟨⟨_, _, 0, CgSeq.start (A *ᵥ (M *ᵥ r0Of K o s.h)), ?_, by omega, ?_⟩, ?_, ?_, ?_, ?_, ?_⟩
        · vlook
        · vlook; rw [hp]; simp
        · vlook; rw [hz, hp]
        · vlook; exact hq
        · vlook; intro h; exact hnot (h0' h)
        · vlook; exact hr0
        · vlook; exact le_rfl
      · rintro j st s' h1 h2 ⟨hs1, -, hI⟩
        obtain ⟨r, hr, hs2, hn, hrest⟩ := crBody_exact hK hA hM hop (t := ⟨bnrmOf K o s.h, tolOf K o s.h⟩) h0 h1 st s'
          (by omega) hI
        refine ⟨r, hr, ?_⟩
        rcases r with ⟨st' | out, s2⟩
        · exact ⟨hs2.trans hs1, by omega, hrest⟩
        · simp only at hrest ⊢
          simp only [Prog.run_pure, Ok_some]
          exact ⟨Or.inl ⟨hrest.1, Or.inl (by rw [hrest.2.1]; exact hn)⟩, hrest.2.2⟩
      · rintro st s' ⟨hs1, -, hI⟩
        simp only [Prog.run_pure, Ok_some]
        refine ⟨Or.inr ⟨trivial, ?_⟩, hI.en⟩
        obtain ⟨⟨r, p, b, hs, er, hb, ep⟩, -, -, hne, -, -⟩ := hI
        have hne' : r (1 + o.maxiter - 1) ≠ 0 := fun h => hne (hM.inj (hA.inj (er.symm.trans h)))
        obtain ⟨-, -, -, hs'⟩ := hs.step (hA.sandwich hM) hA.inv hne' (b := b) (p' := _) (r' := _)
          (by intro hk; rw [hb (by omega), show 1 + o.maxiter - 1 - 1 = 1 + o.maxiter - 2 by omega]) rfl rfl
        have := hs'.card (hA.sandwich hM)
        omega

/-- **C46, in the documented terms** (real numbers). -/
theorem lisCr_spd {K : Kit ℝ ℝ n} {A M : Matrix (Fin n) (Fin n) ℝ} (hK : K.Exact A M) (hA : Spd A) (hM : Spd M)
    (h2 : ∀ v, 0 ≤ K.nrm2 v) (h1 : ∀ v, 0 ≤ K.nrm1 v) (z2 : K.nrm2 0 = 0) (z1 : K.nrm1 0 = 0)
    (o : Opts ℝ ℝ) (ht : 0 ≤ o.tol) (hw : o.conv = .nrm1B → o.tol ≤ o.tolW) (junk : ℝ) (s : MSt ℝ ℝ n)
    (hsz : o.maxiter < s.hist.size) (hmax : n ≤ o.maxiter) (hz : o.initZero → s.h hX = 0) :
    Ok ((lisCr junk o).run K s) fun r => r.1.ret = .success ∧ (r.1.iter ≤ n ∨ r.1.iter = 1) ∧
      MeetsTol K o (s.h hB) (s.h hX) (r.2.h hX) ∧
      residSq A M (s.h hB) (r.2.h hX) ≤ residSq A M (s.h hB) (s.h hX) := by
  have h0 : resOf K o.conv (bnrmOf K o s.h) 0 ≤ tolOf K o s.h := zero_resOf h1 z2 z1 ht hw
  have h0' : r0Of K o s.h = 0 → initialResOf K o s.h ≤ RealOps.fabs o.tol := zero_initialRes z2 z1
  have hA' := crProg_exact hK hA hM (op := .dot) (Or.inl rfl) o junk s hsz hz h0 h0'
  have hB := lisCr_status K o junk s hsz
  have hC := lisCr_residual K hK.linear o junk s hsz hz
  refine ((hA'.conj hB).conj hC).mono ?_
  rintro ⟨out, s'⟩ ⟨⟨⟨hr, he⟩, hc⟩, ht'⟩
  rcases hr with ⟨hr, hi⟩ | ⟨-, hlt⟩
  · exact ⟨hr, hi, meetsTol_of_success hK.linear h2 h1 ht hw hz hc ht' hr, he⟩
  · omega

end Lis
