import Verif.Model.Tfqmr
import Verif.Lemmas.SolverHalf
import Verif.Props.SolverExamples

/-!
# C25: lis_tfqmr
-/

namespace Lis
variable {R S : Type} {n : ℕ}

section status
variable [Zero R] [One R] [Add R] [Neg R] [Mul R] [Div R] [Sub R] [Star R] [DecidableEq R] [RealOps S]

omit [Zero R] [Neg R] [Sub R] [DecidableEq R] in
theorem tfqmrHalf_ok (F : TfqmrFns R S) (K : Kit R S n) (o : Opts R S) (t : Tols S) (i m : ℕ) (alpha w wold : R)
    (g : TfqmrHalf R S) (st : MSt R S n) (hi : i < st.hist.size) :
    Ok ((tfqmrHalf F o t i m alpha w wold g).run K st) fun r => r.2.h hB = st.h hB ∧
      (∀ k, k ≠ hX → k ≠ wk 4 → k ≠ wk 6 → r.2.h k = st.h k) ∧
      r.2.hist = if m = 0 ∧ o.mem = true then st.hist.set i r.1.2 else st.hist := by
  unfold tfqmrHalf
  simp only [mPsolve, vXpay, vAxpy]
  refine Ok_pif (fun hm => ?_) fun hm => ?_
  all_goals refine Ok_vop fun _ _ => Ok_vop fun _ _ => Ok_vop fun _ _ => ?_
  · refine Ok_pif (fun h => ?_) fun h => ?_
    · refine Ok_hist hi (Ok_ret ⟨by vlook, fun k h1 h2 h3 => ?_, by simp [h]⟩)
      simp only [VOp.dst]
      rw [Function.update_of_ne h1, Function.update_of_ne h3, Function.update_of_ne h2]
    · refine Ok_ret ⟨by vlook, fun k h1 h2 h3 => ?_, by simp only [if_neg h]⟩
      simp only [VOp.dst]
      rw [Function.update_of_ne h1, Function.update_of_ne h3, Function.update_of_ne h2]
  · refine Ok_pif (fun h => absurd h.1 hm) fun h => Ok_ret ⟨by vlook, fun k h1 h2 h3 => ?_, by rw [if_neg h]⟩
    simp only [VOp.dst]
    rw [Function.update_of_ne h1, Function.update_of_ne h3, Function.update_of_ne h2]

/-- breakdown: `(v, rtld) = 0` or `(r, rtld) = 0` -/
def TfqmrBrk (K : Kit R S n) (h : MHeap R n) : Prop :=
  K.dot (h (wk 8)) (h (wk 1)) = 0 ∨ K.dot (h (wk 0)) (h (wk 1)) = 0

theorem tfqmrBody_ok (F : TfqmrFns R S) (K : Kit R S n) (o : Opts R S) (t : Tols S) (i : ℕ)
    (p : (R × R × TfqmrHalf R S) × S) (st : MSt R S n) (hi : i < st.hist.size) :
    Ok ((tfqmrBody F o t i p).run K st) (IterHalf o t.tol (TfqmrBrk K) i p.2 st) := by
  obtain ⟨⟨rhoold, wold, g⟩, nrm2⟩ := p
  unfold tfqmrBody tfqmrNext
  simp only [mPsolve, mMatvec, vAxpyz, vAxpy, vXpay, vDot, vNrm2]
  refine Ok_red fun s hs => Ok_pif (fun h0 => Ok_ret ?_) fun h0 => ?_
  · exact ⟨rfl, rfl, .inr ⟨rfl, .inl (by rw [← h0, hs]; rfl), .inl ⟨rfl, rfl⟩⟩⟩
  refine Ok_vop fun _ _ => Ok_vop fun _ _ => Ok_vop fun _ _ => Ok_vop fun _ _ => Ok_vop fun _ _ => Ok_norm fun w _ =>
    Ok_pbind ((tfqmrHalf_ok F K o t i 0 _ _ _ _ _ (by exact hi)).mono ?_)
  rintro ⟨⟨g1, v1⟩, ⟨h1, a1⟩⟩ ⟨hb1, hk1, ha1⟩
  simp only [true_and] at ha1
  have hb1' : h1 hB = st.h hB := hb1.trans (by vlook)
  have hr1 : Recorded o i v1 st.hist a1 := ha1
  refine Ok_pif (fun hle => Ok_ret ?_) fun hle => Ok_pbind ((tfqmrHalf_ok F K o t i 1 _ _ _ _ _ (by
    rw [hr1.size]; exact hi)).mono ?_)
  · exact ⟨hb1', rfl, .inl ⟨rfl, hle, v1, .inl rfl, hr1⟩⟩
  rintro ⟨⟨g2, v2⟩, ⟨h2, a2⟩⟩ ⟨hb2, hk2, ha2⟩
  simp only [Nat.one_ne_zero, false_and, if_false] at ha2
  have hb2' : h2 hB = st.h hB := hb2.trans hb1'
  have hr2 : Recorded o i v1 st.hist a2 := by rw [ha2]; exact hr1
  refine Ok_pif (fun hle2 => Ok_ret ?_) fun hle2 => Ok_red fun rho hrho => Ok_pif (fun h0 => Ok_ret ?_) fun h0 => ?_
  · exact ⟨hb2', rfl, .inl ⟨rfl, hle2, v1, .inr hle, hr2⟩⟩
  · exact ⟨hb2', rfl, .inr ⟨rfl, .inr (by rw [← h0, hrho]; rfl), .inr ⟨hle2, v1, hr2⟩⟩⟩
  · refine Ok_vop fun _ _ => Ok_vop fun _ _ => Ok_vop fun _ _ => Ok_vop fun _ _ => Ok_vop fun _ _ => Ok_ret ?_
    refine ⟨?_, hle2, v1, hle, hr2⟩
    rw [← hb2']
    vlook

/-- **C25: status contract of `lis_tfqmr`.**  The number tested is the solver's own estimate, not the residual of `x`
(`lisTfqmr_false_success`). -/
theorem lisTfqmr_status (F : TfqmrFns R S) (junk : S) (K : Kit R S n) (o : Opts R S) (st : MSt R S n)
    (hsz : o.maxiter < st.hist.size) :
    Ok ((lisTfqmr F junk o).run K st) fun r => ContractHalf K o junk (TfqmrBrk K) st r.2 r.1 := by
  unfold lisTfqmr
  refine Ok_solverHalf (K := K) (o := o) (s := st) (by decide) fun hinit => ?_
  simp only [vCopy, vSetAll, mPsolve, mMatvec, vDot, vNrm2]
  refine Ok_setShadow fun _ => Ok_vop fun _ _ => Ok_vop fun _ _ => Ok_vop fun _ _ => Ok_vop fun _ _ => Ok_vop fun _ _ =>
    Ok_red fun _ _ => Ok_norm fun _ _ => Ok_mainLoopHalf hinit hsz (by vlook) rfl fun i p s2 hi =>
    tfqmrBody_ok F K o _ i p s2 hi

end status

/-! ### the estimate is not the residual -/

section findings

/-- `A = [[1,0],[-k,1]]`, no preconditioner, Euclidean norm -/
noncomputable def tfqmrKit (k : ℝ) : Kit ℝ ℝ 2 where
  mv := fun v => ![v 0, -k * v 0 + v 1]
  mvh := fun v => ![v 0 - k * v 1, v 1]
  ps := id
  psh := id
  ls := id
  rdg := ![1, 1]
  dot := fun x y => x 0 * y 0 + x 1 * y 1
  nhdot := fun x y => x 0 * y 0 + x 1 * y 1
  nrm2 := fun v => Real.sqrt (v 0 * v 0 + v 1 * v 1)
  nrm1 := fun v => |v 0| + |v 1|

/-- real arithmetic -/
noncomputable def realTfqmr : TfqmrFns ℝ ℝ := ⟨id, id, Real.sqrt⟩

/-- Finding: `lis_tfqmr` can return `LIS_SUCCESS` with reported residual `0` and an `x` whose residual is as large as one
likes: `A = [[1,0],[-k,1]]`, `b = (1,0)`, `x₀ = 0` gives `x = (1,0)`, `b - A x = (0,k)`.  The first half step uses
`sqrt(w*wold)`, which is zero as soon as the second half step would reach the solution.
src/solver/lis_solver_qmr.c:211-215, 234-244 -/
theorem lisTfqmr_false_success (k junk : ℝ) (m : ℕ) (hm : 1 ≤ m) :
    ∃ s : MSt ℝ ℝ 2, s.hist.size = m + 2 ∧ s.h hX = 0 ∧ s.h hB = ![1, 0] ∧
      Ok ((lisTfqmr realTfqmr junk ⟨m, true, .nrm2R, true, 1 / 10, 1 / 10, none⟩).run (tfqmrKit k) s) fun r =>
        r.1 = ⟨.success, 1, 0⟩ ∧ trueRes (tfqmrKit k) r.2.h = ![0, k] := by
  refine ⟨⟨fun v => if v = hB then ![1, 0] else 0, ⟨m + 2, fun _ => 0⟩⟩, rfl, rfl, rfl, ?_⟩
  obtain ⟨m, rfl⟩ : ∃ j, m = j + 1 := ⟨m - 1, by omega⟩
  have hinit : ¬ initialResOf (tfqmrKit k) ⟨m + 1, true, .nrm2R, true, 1 / 10, 1 / 10, none⟩
    (fun v => if v = hB then ![1, 0] else 0) ≤ RealOps.fabs (1 / 10 : ℝ) := by
    have : (RealOps.fabs (1 / 10 : ℝ) : ℝ) = |1 / 10| := rfl
    rw [this]
    simp [initialResOf, r0Of, bnrmOf, refNorm, tfqmrKit]
    norm_num [abs_lt]
  unfold lisTfqmr
  rw [Prog.run_bind, run_initialResidual _ _ _ _ (by decide), Option.bind_some, if_neg hinit]
  simp only [setShadow, mainLoop, forIter, tfqmrBody, tfqmrHalf, vCopy, vConj, vSetAll, mPsolve, mMatvec, vDot, vNrm2,
    vAxpyz, vAxpy, vXpay]
  have hr0 : r0Of (tfqmrKit k) ⟨m + 1, true, .nrm2R, true, 1 / 10, 1 / 10, none⟩
    (fun v => if v = hB then ![1, 0] else 0) = ![1, 0] := by simp [r0Of]
  have hx0 : (fun v => if v = hB then (![1, 0] : Fin 2 → ℝ) else 0) hX = 0 := rfl
  have hb0 : (fun v => if v = hB then (![1, 0] : Fin 2 → ℝ) else 0) hB = ![1, 0] := rfl
  rw [hr0]
  generalize (fun v => if v = hB then (![1, 0] : Fin 2 → ℝ) else 0) = h0 at hx0 hb0 ⊢
  refine Ok_pbind (Ok_vop fun w1 h1 => Ok_vop1 fun w2 h2 => Ok_vop fun w3 h3 => Ok_vop fun w4 h4 => Ok_vop fun w5 h5 =>
    Ok_vop fun w6 h6 => Ok_vop fun w7 h7 => Ok_red fun rho hrho => Ok_norm fun tau htau =>
    Ok_pbind (Ok_pbind (Ok_red fun s hs => ?_)))
  vlook at h1
  subst h1
  vlook at h2
  have h2 : w2 = ![1, 0] := by rw [h2]; simp
  subst h2
  vlook at h3
  subst h3
  vlook at h4
  subst h4
  vlook at h5
  vlook at h6
  have h6 : w6 = ![1, 0] := h6
  subst h6
  vlook at h7
  have h7 : w7 = ![1, -k] := by rw [h7]; simp [tfqmrKit]
  subst h7
  vlook at hrho
  have hrho : rho = 1 := by rw [hrho]; simp [tfqmrKit]
  subst hrho
  vlook at htau
  have htau : tau = 1 := by rw [htau]; simp [tfqmrKit]
  subst htau
  vlook at hs
  have hs : s = 1 := by rw [hs]; simp [tfqmrKit]
  subst hs
  rw [if_neg one_ne_zero, div_one]
  refine Ok_vop fun w8 h8 => Ok_vop fun w9 h9 => Ok_vop fun w10 h10 => Ok_vop fun w11 h11 => Ok_vop fun w12 h12 =>
    Ok_norm fun w hw => Ok_pbind ?_
  vlook at h8
  have h8 : w8 = ![0, k] := by rw [h8]; ext i; fin_cases i <;> simp
  subst h8
  vlook at h9
  have h9 : w9 = ![1, k] := by rw [h9]; ext i; fin_cases i <;> simp
  subst h9
  vlook at h10
  have h10 : w10 = ![1, k] := h10
  subst h10
  vlook at h11
  have h11 : w11 = ![1, 0] := by rw [h11]; simp [tfqmrKit]
  subst h11
  vlook at h12
  have h12 : w12 = ![0, 0] := by rw [h12]; ext i; fin_cases i <;> simp
  subst h12
  vlook at hw
  have hw : w = 0 := by rw [hw]; simp [tfqmrKit]
  subst hw
  simp only [realTfqmr, id, if_true, zero_mul, Real.sqrt_zero, zero_div, mul_zero, add_zero, Real.sqrt_one, mul_one,
    true_and]
  refine Ok_vop fun w13 h13 => Ok_vop fun w14 h14 => Ok_vop fun w15 h15 => Ok_hist (by simp) (Ok_ret ?_)
  vlook at h13
  have h13 : w13 = ![1, 0] := by rw [h13, h5]; ext i; fin_cases i <;> simp
  subst h13
  vlook at h14
  have h14 : w14 = ![1, 0] := h14
  subst h14
  vlook at h15
  have h15 : w15 = ![1, 0] := by rw [h15, hx0]; ext i; fin_cases i <;> simp
  subst h15
  refine Ok_pif (fun hle => Ok_ret (Ok_ret (Ok_ret ?_))) fun hle => absurd ?_ hle
  · refine ⟨by simp, ?_⟩
    unfold trueRes
    vlook
    rw [hb0]
    ext i
    fin_cases i <;> simp [tfqmrKit]
  · simp [tolOf]

end findings

section runs
attribute [local instance] starRingOfComm ratReal

/-- the endings of the contract occur: convergence, `LIS_MAXITER`, breakdown (`sqrt` replaced by the identity) -/
example : ((lisTfqmr (R := ℚ) (S := ℚ) ⟨id, id, id⟩ 77 (demoOpts 4)).run demoKit (demoState ![1, 0])).map Prod.fst =
    some ⟨.success, 2, 0⟩ := by decide +kernel
example : ((lisTfqmr (R := ℚ) (S := ℚ) ⟨id, id, id⟩ 77 (demoOpts 1)).run demoKit (demoState ![1, 0])).map Prod.fst =
    some ⟨.maxiter, 2, 16 / 41⟩ := by decide +kernel
example : ((lisTfqmr (R := ℚ) (S := ℚ) ⟨id, id, id⟩ 77 (demoOpts 4)).run { demoKit with mv := fun v => ![v 1, v 0] }
    (demoState ![1, 0])).map Prod.fst = some ⟨.breakdown, 1, 77⟩ := by decide +kernel

end runs
end Lis
