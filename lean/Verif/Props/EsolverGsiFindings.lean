import Verif.Props.EsolverGsiExact

/-!
# C64: where generalized subspace iteration cannot work
-/

namespace Lis
open Matrix
variable {M : Type} {n : ℕ} {K : EKit ℝ ℝ M n} {mat : Bool → M → Matrix (Fin n) (Fin n) ℝ}

/-- **Finding.** Because the vectors are orthogonalized in the plain inner product, a mode after the first cannot reach the
residual 0 (with either inner eigensolver) unless the pencil has an eigenvector orthogonal, in that inner product, to the vector
found before. -/
theorem lisEgsi_later_inexact (hK : K.Exact mat (mat true)) (hmv : ∀ m x, K.mv true m x = mat true m *ᵥ x)
    (hlin : ∀ b m v y0 y, K.lin b m v y0 = (.success, y) → mat b m *ᵥ y = v) (inner : SgInner) (hi : inner ≠ .other)
    (perrA perrB : ℕ → Err) (ss : ℕ) (hss : 1 ≤ ss) (jt jr : ℝ) (o : EOpts ℝ ℝ) (s : ESt ℝ ℝ M n)
    (hsz : o.maxiter < s.hist.size) (h0 : o.ishift = 0) :
    Ok ((lisEgsi ltR inner perrA perrB ss jt jr o).run K s) fun r => r.1.ret = .success →
      ∀ j, 0 < j → j < ss →
        (∀ (v : Fin n → ℝ) (l : ℝ), v ≠ 0 → v ⬝ᵥ r.2.h (ss + 5 + (j - 1)) = 0 → mat false s.m *ᵥ v ≠ l • (mat true s.m *ᵥ v)) →
        ∀ k resid l, r.1.modes[j]? = some (some (k, resid, l)) → 1 ≤ k → l ≠ o.sigma → resid ≠ 0 := by
  cases inner with
  | other => exact absurd rfl hi
  | gpi =>
    refine (lisEgsi_gpi_exact hK (hlin true) perrA perrB ss hss jt jr o s hsz h0).mono ?_
    intro r h hs j hj0 hj hno k resid l hm hk hl hr
    obtain ⟨k', resid', l', e, -, -, f⟩ := (h hs).2.2.2.2 j hj
    rw [e] at hm
    simp only [Option.some.injEq, Prod.mk.injEq] at hm
    obtain ⟨rfl, rfl, rfl⟩ := hm
    obtain ⟨-, v, y, g1, -, -, -, g5, g6⟩ := f hk hl
    exact hno v _ (by rintro rfl; simp at g1) (g6 hj0) (g5 hr)
  | gii =>
    refine (lisEgsi_gii_exact hK hmv (hlin false) perrA perrB ss hss jt jr o s hsz h0).mono ?_
    intro r h hs j hj0 hj hno k resid l hm hk hl hr
    obtain ⟨k', resid', l', e, -, -, f⟩ := (h hs).2.2.2.2 j hj
    rw [e] at hm
    simp only [Option.some.injEq, Prod.mk.injEq] at hm
    obtain ⟨rfl, rfl, rfl⟩ := hm
    obtain ⟨-, v, y, g1, -, -, -, -, g5, g6⟩ := f hk hl
    exact hno v _ (by rintro rfl; simp at g1) (g6 hj0) (g5 hr)

/-- the symmetric positive definite pencil `A = diag(1,2)`, `B = [2 1; 1 2]`: no two eigenvectors are orthogonal in the plain inner
product, so once mode 0 has found an eigenvector no later mode can be exact -/
example (x v : Fin 2 → ℝ) (a b : ℝ) (hx : x ≠ 0) (hv : v ≠ 0) (h : v ⬝ᵥ x = 0)
    (ha : !![(1 : ℝ), 0; 0, 2] *ᵥ x = a • (!![(2 : ℝ), 1; 1, 2] *ᵥ x)) :
    !![(1 : ℝ), 0; 0, 2] *ᵥ v ≠ b • (!![(2 : ℝ), 1; 1, 2] *ᵥ v) := by
  intro hb
  have key : ∀ (z : Fin 2 → ℝ) (c : ℝ), !![(1 : ℝ), 0; 0, 2] *ᵥ z = c • (!![(2 : ℝ), 1; 1, 2] *ᵥ z) →
      z 0 * z 0 - 2 * (z 0 * z 1) - 2 * (z 1 * z 1) = 0 := by
    intro z c hz
    have e0 := congrFun hz 0
    have e1 := congrFun hz 1
    simp [mulVec, dotProduct, Fin.sum_univ_two] at e0 e1
    have : z 0 * (c * (z 0 + 2 * z 1)) = (2 * z 1) * (c * (2 * z 0 + z 1)) := by rw [← e0, ← e1]; ring
    by_cases hc : c = 0
    · rw [hc] at e0 e1
      simp only [zero_mul] at e0 e1
      have : z 1 = 0 := by linarith
      rw [e0, this]; ring
    · have h2 : c * (z 0 * (z 0 + 2 * z 1) - (2 * z 1) * (2 * z 0 + z 1)) = 0 := by linear_combination this
      have h3 := (mul_eq_zero.1 h2).resolve_left hc
      linear_combination h3
  have k1 := key x a ha
  have k2 := key v b hb
  simp only [dotProduct, Fin.sum_univ_two] at h
  -- v is a multiple of (-x 1, x 0)
  have hxx : 0 < x 0 * x 0 + x 1 * x 1 := by
    by_contra hc
    have a0 := mul_self_nonneg (x 0)
    have a1 := mul_self_nonneg (x 1)
    apply hx
    funext i
    fin_cases i
    · exact mul_self_eq_zero.1 (show x 0 * x 0 = 0 by linarith)
    · exact mul_self_eq_zero.1 (show x 1 * x 1 = 0 by linarith)
  obtain ⟨t, ht⟩ : ∃ t, t = (x 0 * v 1 - x 1 * v 0) / (x 0 * x 0 + x 1 * x 1) := ⟨_, rfl⟩
  have ht' : t * (x 0 * x 0 + x 1 * x 1) = x 0 * v 1 - x 1 * v 0 := by rw [ht, div_mul_cancel₀ _ hxx.ne']
  have v0 : v 0 = -(t * x 1) := by
    have : (v 0 + t * x 1) * (x 0 * x 0 + x 1 * x 1) = 0 := by linear_combination x 1 * ht' + x 0 * h
    have := (mul_eq_zero.1 this).resolve_right hxx.ne'
    linarith
  have v1 : v 1 = t * x 0 := by
    have : (v 1 - t * x 0) * (x 0 * x 0 + x 1 * x 1) = 0 := by linear_combination -(x 0) * ht' + x 1 * h
    have := (mul_eq_zero.1 this).resolve_right hxx.ne'
    linarith
  rw [v0, v1] at k2
  have h5 : t * t * (x 0 * x 0 + x 1 * x 1) = 0 := by linear_combination -k2 - t * t * k1
  have h6 : t = 0 := mul_self_eq_zero.1 ((mul_eq_zero.1 h5).resolve_right hxx.ne')
  apply hv
  funext i
  fin_cases i
  · change v 0 = 0; rw [v0, h6]; simp
  · change v 1 = 0; rw [v1, h6]; simp

/-- **Finding.** Every mode starts with the vector the mode before it ended with, which orthogonalized against itself is zero: in
real arithmetic the first iteration of the second mode scales and solves with zero vectors, and `theta = 0`. -/
theorem sgMode_second_degenerate (hK : K.Exact mat (mat true)) (hmv : ∀ m x, K.mv true m x = mat true m *ᵥ x)
    (lt : ℝ → ℝ → Bool) (inner : SgInner) (hi : inner ≠ .other) (o : EOpts ℝ ℝ) (m : M)
    (q : SgPt ℝ ℝ n) (h : nrm (sgMode' K lt inner o m q 0).v = 1) :
    let first := sgStep K inner m [(sgMode' K lt inner o m q 0).v] (sgMode' K lt inner o m q 0)
    first.u = 0 ∧ first.w = 0 ∧ (first.err = .success → first.theta = 0) := by
  have hu : orthAll K.base [(sgMode' K lt inner o m q 0).v] (sgMode' K lt inner o m q 0).v = 0 := by
    have hww : (sgMode' K lt inner o m q 0).v ⬝ᵥ (sgMode' K lt inner o m q 0).v = 1 := by rw [← nrm_sq, h]; simp
    unfold orthAll
    simp only [List.foldl_cons, List.foldl_nil]
    rw [hK.dot, hww]
    funext i
    simp [axpyV]
  have h1 : ∀ v w, (sgImage K inner m 0 v w).2.1 = 0 ∧ (sgImage K inner m 0 v w).2.2.1 = 0 := by
    intro v w
    cases inner with
    | other => exact absurd rfl hi
    | gpi => simp [sgImage, smulV_eq, hK.mv]
    | gii => simp [sgImage, smulV_eq, hmv]
  unfold sgStep
  simp only [hu]
  obtain ⟨a, b⟩ := h1 (sgMode' K lt inner o m q 0).v (sgMode' K lt inner o m q 0).w
  split
  · rename_i hc
    exact ⟨a, b, fun h => absurd h hc⟩
  · refine ⟨a, b, fun _ => ?_⟩
    simp only
    rw [hK.dot, b]; simp

/-- the second mode does begin with that iteration -/
theorem sgEnds_two (lt : ℝ → ℝ → Bool) (inner : SgInner) (o : EOpts ℝ ℝ) (m : M) (q : SgPt ℝ ℝ n) :
    sgMode' K lt inner o m q 1 =
      (sgStep K inner m [(sgMode' K lt inner o m q 0).v])^[sgIter K lt inner o m q 1] (sgMode' K lt inner o m q 0) := rfl

/-- **Finding.** With an inner eigensolver other than the two implemented, nothing is computed, `lis_precon_destroy` is called with an
uninitialised pointer. -/
theorem sgFree_other (ss : ℕ) : sgFree .other ss = none := by
  unfold sgFree
  induction ss with
  | zero => rfl
  | succ j ih => simp [sgPreconVar, ih]

/-- **Finding.** With inverse iteration the preconditioner given to the solves with `A` in mode `j` is the one made from `B`; that
made from `A` is lost at once, those of all modes but the last are lost later. -/
theorem sgPreconVar_gii (j : ℕ) (hj : 1 ≤ j) : sgPreconVar .gii j = some (true, j) := by
  obtain ⟨i, rfl⟩ : ∃ i, j = i + 1 := ⟨j - 1, by omega⟩
  simp [sgPreconVar]

/-- with an inner eigensolver that is not implemented no eigenvalue is set and, before the invalid `lis_precon_destroy`, the
computation ends as if successful -/
theorem lisEgsi_other {R S : Type} [Zero R] [One R] [Add R] [Neg R] [Sub R] [Mul R] [Div R] [Star R] [DecidableEq R] [RealOps S]
    [EigOps R S] (K : EKit R S M n) (lt : S → S → Bool) (perrA perrB : ℕ → Err) (ss : ℕ) (hss : 1 ≤ ss) (jt : R) (jr : S)
    (o : EOpts R S) (s : ESt R S M n) (hsz : o.maxiter < s.hist.size) (h0 : o.ishift = 0) :
    Ok ((lisEgsi lt .other perrA perrB ss jt jr o).run K s) fun r => r.1 = ⟨.success, List.replicate ss none⟩ := by
  refine (lisEgsi_spec K lt .other perrA perrB ss hss jt jr o s hsz h0).mono ?_
  rintro r ⟨h1, -⟩
  have hstep : ∀ m vs (p : SgPt R S n), (sgStep K .other m vs p).err = .success := by
    intro m vs p
    unfold sgStep
    simp [sgImage]
  have hit : ∀ m vs (p : SgPt R S n) k, p.err = .success → ((sgStep K .other m vs)^[k] p).err = .success := by
    intro m vs p k hp
    cases k with
    | zero => exact hp
    | succ k => rw [Function.iterate_succ_apply']; exact hstep _ _ _
  have hall : ∀ m (q : SgPt R S n), q.err = .success → ∀ j, ∀ p ∈ sgEnds K lt .other o m q j, p.err = .success := by
    intro m q hq j
    induction j with
    | zero => simp [sgEnds]
    | succ j ih =>
      intro p hp
      unfold sgEnds at hp
      simp only [List.mem_append, List.mem_singleton] at hp
      rcases hp with hp | hp
      · exact ih p hp
      · rw [hp]
        refine hit _ _ _ _ ?_
        cases hl : (sgEnds K lt .other o m q j).getLast? with
        | none => exact hq
        | some p => exact ih p (List.mem_of_getLast? hl)
  rw [(h1 fun j _ => by
    unfold sgErr sgPrecon
    simp only [ne_eq, not_true_eq_false, if_false]
    refine hall (shiftIf K o o.sigma s.m) (sgStart K jt jr (s.h 2)) rfl (j + 1) _ ?_
    rw [sgEnds_eq, List.mem_map]
    exact ⟨j, by simp, rfl⟩).1]
  congr 1
  rw [List.eq_replicate_iff]
  refine ⟨by simp, fun b hb => ?_⟩
  rw [List.mem_map] at hb
  obtain ⟨j, -, rfl⟩ := hb
  rfl

/-- **C64.** The preconditioner of the first mode cannot be created: with inverse iteration inside, both that of `A` and that of
`B` are created and the error of the first that fails is returned; with the power method inside, only that of `B`.  No
eigenvalue is reported. -/
theorem lisEgsi_precon_error {R S : Type} [Zero R] [One R] [Add R] [Neg R] [Sub R] [Mul R] [Div R] [Star R] [DecidableEq R]
    [RealOps S] [EigOps R S] (K : EKit R S M n) (lt : S → S → Bool) (inner : SgInner) (perrA perrB : ℕ → Err) (ss : ℕ) (hss : 0 < ss)
    (jt : R) (jr : S) (o : EOpts R S) (s : ESt R S M n) (hsz : o.maxiter < s.hist.size) (h0 : o.ishift = 0) (e : Err)
    (he : e ≠ .success)
    (h : (inner = .gii ∧ (perrA 1 = e ∨ perrA 1 = .success ∧ perrB 1 = e)) ∨ (inner = .gpi ∧ perrB 1 = e)) :
    Ok ((lisEgsi lt inner perrA perrB ss jt jr o).run K s) fun r => r.1 = ⟨e, []⟩ := by
  refine (lisEgsi_spec K lt inner perrA perrB ss hss jt jr o s hsz h0).mono ?_
  rintro r ⟨-, h2, -⟩
  have hp : sgPrecon inner perrA perrB (0 + 1) = e := by
    rcases h with ⟨rfl, h | ⟨h, h'⟩⟩ | ⟨rfl, h⟩
    · simp [sgPrecon, h, he]
    · simp [sgPrecon, h, h']
    · simp [sgPrecon, h]
  have hE : ∀ m q, sgErr K lt inner perrA perrB o m q 0 = e := by
    intro m q
    unfold sgErr
    rw [hp, if_pos he]
  have := (h2 0 hss (by rw [hE]; exact he) (fun l hl => by omega)).1
  rw [hE] at this
  exact this

/-! ### a concrete case -/

/-- calls on a pair of `2 × 2` matrices in real arithmetic; the linear solver inverts, or fails -/
noncomputable def demoPencil : EKit ℝ ℝ (Matrix (Fin 2) (Fin 2) ℝ × Matrix (Fin 2) (Fin 2) ℝ) 2 where
  base := { mathKit (fun _ _ => 0) Real.sqrt (fun x => |x|) id id id 0 with dot := fun x y => x ⬝ᵥ y, nrm2 := nrm }
  mv := fun b m x => (if b then m.2 else m.1) *ᵥ x
  mvh := fun b m x => (if b then m.2 else m.1)ᵀ *ᵥ x
  shift := fun a m => (m.1 - a • m.2, m.2)
  lin := fun b m v _ => demoInverse (if b then m.2 else m.1) v

theorem demoPencil_exact : demoPencil.Exact (fun b m => if b then m.2 else m.1) fun m => m.2 :=
  ⟨fun _ _ => rfl, fun _ => rfl, fun _ _ => rfl, fun _ _ => rfl, fun _ _ => rfl⟩

/-- the hypotheses of the theorems hold of it -/
example : demoPencil.Exact (fun b m => if b then m.2 else m.1) ((fun b m => if b then m.2 else m.1) true) ∧
    (∀ m x, demoPencil.mv true m x = (fun (b : Bool) (m : Matrix (Fin 2) (Fin 2) ℝ × Matrix (Fin 2) (Fin 2) ℝ) =>
      if b then m.2 else m.1) true m *ᵥ x) ∧
    ∀ b m v y0 y, demoPencil.lin b m v y0 = (.success, y) → (if b then m.2 else m.1) *ᵥ y = v := by
  refine ⟨demoPencil_exact, fun _ _ => rfl, fun b m v y0 y h => ?_⟩
  simp only [demoPencil, demoInverse] at h
  generalize (if b = true then m.2 else m.1) = T at h ⊢
  split at h
  · rename_i hu
    simp only [Prod.mk.injEq, true_and] at h
    rw [← h, mulVec_mulVec, Matrix.mul_nonsing_inv _ hu]
    simp
  · simp at h

/-- for the pencil `A = 3 I`, `B = I` the first iteration finds eigenvalue 3 with residual 0: mode 0 ends after one iteration with a
pair to which the theorems apply (`l = 3 ≠ 0 = sigma`) -/
example (jt jr : ℝ) (w : Fin 2 → ℝ) : let K := demoPencil
    let m : Matrix (Fin 2) (Fin 2) ℝ × Matrix (Fin 2) (Fin 2) ℝ := ((3 : ℝ) • 1, 1)
    let o : EOpts ℝ ℝ := ⟨5, true, true, 1 / 10, 0, 0⟩
    sgRes K ltR .gpi o m (sgStart K jt jr w) 0 = some (1, 0, 3) := by
  intro K m o
  have hK := demoPencil_exact
  obtain ⟨v, hv⟩ : ∃ v, v = (sgStart K jt jr w).v := ⟨_, rfl⟩
  have hn : nrm v = 1 := by
    have : (sgStart K jt jr w).v = (1 / nrm fun _ : Fin 2 => (1 : ℝ)) • fun _ => 1 := hK.unit _
    rw [hv, this]
    exact nrm_unit fun h => one_ne_zero (congrFun h 0)
  have hvv : v ⬝ᵥ v = 1 := by rw [← nrm_sq, hn]; simp
  have himg : K.mv false m v = (3 : ℝ) • v := by
    change ((3 : ℝ) • (1 : Matrix (Fin 2) (Fin 2) ℝ)) *ᵥ v = _
    rw [Matrix.smul_mulVec, Matrix.one_mulVec]
  have h3 : Real.sqrt 3 * Real.sqrt 3 = 3 := Real.mul_self_sqrt (by norm_num)
  have h30 : Real.sqrt 3 ≠ 0 := by intro h; rw [h] at h3; norm_num at h3
  have hf : sgFactor K false m v = 1 / Real.sqrt 3 := by
    unfold sgFactor
    rw [himg]
    change 1 / Real.sqrt (v ⬝ᵥ ((3 : ℝ) • v)) = _
    rw [dotProduct_smul, hvv]
    norm_num
  have hlin : ∀ x y, K.lin true m x y = (.success, x) := by
    intro x y
    change demoInverse (1 : Matrix (Fin 2) (Fin 2) ℝ) x = _
    unfold demoInverse
    simp
  have h1 : (sgStep K .gpi m [] (sgStart K jt jr w)).theta = 3 ∧ (sgStep K .gpi m [] (sgStart K jt jr w)).resid = 0 ∧
      (sgStep K .gpi m [] (sgStart K jt jr w)).err = .success := by
    unfold sgStep
    simp only [sgImage, orthAll, List.foldl_nil, ← hv, hlin, ne_eq, not_true_eq_false, if_false, himg, hf, smulV_eq]
    rw [hK.dot, hK.relRes]
    have e : ((1 / Real.sqrt 3) • (3 : ℝ) • v) ⬝ᵥ ((1 / Real.sqrt 3) • (3 : ℝ) • v) = 3 := by
      simp only [smul_dotProduct, dotProduct_smul, hvv, smul_eq_mul]
      field_simp
      rw [sq, h3]
    rw [e]
    refine ⟨rfl, ?_, trivial⟩
    have e2 : (1 / Real.sqrt 3) • (3 : ℝ) • v - (3 : ℝ) • (1 / Real.sqrt 3) • v = 0 := by
      rw [smul_comm, sub_self]
    rw [e2]
    simp [nrm]
  have hk : sgIter K ltR .gpi o m (sgStart K jt jr w) 0 = 1 := by
    change iters (fun i => sgStop ltR o ((sgStep K .gpi m [])^[i] (sgStart K jt jr w))) (4 + 1) 0 = 1
    unfold iters
    refine if_pos ?_
    simp only [Nat.zero_add, Function.iterate_one]
    change sgStop ltR o (sgStep K .gpi m [] (sgStart K jt jr w)) = true
    unfold sgStop
    rw [h1.2.1, h1.2.2]
    simp only [ne_eq, not_true_eq_false, decide_false, Bool.false_or]
    exact ltR_tol.2 (by norm_num [o])
  have hm : sgMode' K ltR .gpi o m (sgStart K jt jr w) 0 = sgStep K .gpi m [] (sgStart K jt jr w) := by
    change (sgStep K .gpi m [])^[sgIter K ltR .gpi o m (sgStart K jt jr w) 0] (sgStart K jt jr w) = _
    rw [hk]; rfl
  unfold sgRes
  rw [hk, hm, h1.1, h1.2.1]
  simp [sgValue, EOpts.sigma, o]

end Lis
