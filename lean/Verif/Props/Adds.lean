import Verif.Model.Adds
import Verif.Spec.Adds
import Verif.Props.CgArray
import Mathlib.LinearAlgebra.Matrix.ConjTranspose
import Mathlib.Tactic.NoncommRing
import Mathlib.Tactic.Abel

/-!
# C51: additive Schwarz preconditioning
-/

namespace Lis
open Finset Matrix
variable {R : Type} {n : ℕ}

section run
variable [Ring R]

theorem Ok_vecs_of_elem {h : Vecs R} {z : ℕ} (hg : h.Good n) {body : ℕ → Vecs R → Option (Vecs R)} (g : ℕ → R)
    (hb : ∀ i h', i < n → ElemInv h z i h' → body i h' = vwr h' z i (g i)) :
    Ok (loop 0 n h body) fun h' => h'.Good n ∧ h'.vecs n = Function.update (h.vecs n) z fun i => g i :=
  Ok_elem g (hg z).1 (hg z).2 hb fun _ a => ⟨a.good hg, a.vecs hg⟩

theorem addsResid_spec {mv : ℕ → ℕ → Vecs R → Option (Vecs R)} {A : (Fin n → R) → Fin n → R} (hmv : MapsVec n mv A)
    {iter b x r k : ℕ} (hxr : x ≠ r) (hbr : b ≠ r) {h : Vecs R} (hg : h.Good n) :
    Ok (addsResid mv iter n b x r k h) fun h' => h'.Good n ∧ h'.vecs n =
      if k ≠ iter then Function.update (h.vecs n) r (h.vecs n b - A (h.vecs n x)) else h.vecs n := by
  unfold addsResid
  by_cases hk : k = iter
  · simp only [hk, ne_eq, not_true_eq_false, if_false]
    rw [Ok_some]; exact ⟨hg, rfl⟩
  · rw [if_pos hk, if_pos hk, Ok_bind]
    refine (hmv x r h hxr hg).mono ?_
    rintro h1 ⟨g1, e1⟩
    refine (Ok_vecs_of_elem (z := r) g1 (fun i => h1.el b i - h1.el r i) ?_).mono ?_
    · intro i h' hi hI
      rw [vrd_eq hI hi (g1 b).2]
      simp only [Option.bind_eq_bind, Option.bind_some]
      rw [vrd_eq hI hi (g1 r).2]
      rfl
    · rintro h2 ⟨g2, e2⟩
      refine ⟨g2, ?_⟩
      rw [e2]
      have hb : (fun i : Fin n => h1.el b i - h1.el r i) = h1.vecs n b - h1.vecs n r := rfl
      rw [hb, e1, Function.update_self, Function.update_of_ne hbr, Function.update_idem]

/-- **C51 (application).** For any inner preconditioner that computes a function `P`, and any correct product `A`, additive
Schwarz preconditioning stays within its arrays, returns in `X` the result of `adds_iter + 1` steps of iterative refinement
`X ← X + P(B - A X)` from zero, whatever the work vectors held, and changes nothing but `X` and the work vectors. -/
theorem psolveAdds_spec {mv ps : ℕ → ℕ → Vecs R → Option (Vecs R)} {A P : (Fin n → R) → Fin n → R}
    (hmv : MapsVec n mv A) (hA0 : A 0 = 0) (hps : MapsVec n ps P) (iter : ℕ) {b x w r : ℕ} (hbx : b ≠ x) (hbw : b ≠ w)
    (hbr : b ≠ r) (hxw : x ≠ w) (hxr : x ≠ r) (hwr : w ≠ r) {h : Vecs R} (hg : h.Good n) :
    Ok (psolveAdds mv ps iter n n b x w r h) fun h' => h'.Good n ∧
      h'.vecs n x = addsIter A P (h.vecs n b) (iter + 1) ∧
      ∀ v, v ≠ x → v ≠ w → v ≠ r → h'.vecs n v = h.vecs n v := by
  unfold psolveAdds
  rw [Ok_bind]
  refine (Ok_of_assigned hg (vectorSetAll_spec 0 h x (hg.wf x))).mono ?_
  rintro h1 ⟨g1, e1⟩
  rw [Ok_bind]
  refine (Ok_of_assigned g1 (vectorCopy_spec h1 b r (g1.wf b) (g1.wf r) (by rw [(g1 b).1, (g1 r).1]))).mono ?_
  rintro h2 ⟨g2, e2⟩
  refine Ok_loop_le (fun k h' => h'.Good n ∧ h'.vecs n x = addsIter A P (h.vecs n b) k ∧
      (k ≤ iter → h'.vecs n r = h.vecs n b - A (addsIter A P (h.vecs n b) k)) ∧
      ∀ v, v ≠ x → v ≠ w → v ≠ r → h'.vecs n v = h.vecs n v) (Nat.zero_le _) ⟨g2, ?_, ?_, ?_⟩ ?_ ?_
  · rw [e2, Function.update_of_ne hxr, e1, Function.update_self]; rfl
  · intro _
    rw [e2, Function.update_self]
    show h1.vecs n b = _
    rw [e1, Function.update_of_ne hbx]
    show _ = _ - A 0
    rw [hA0, sub_zero]
  · intro v v1 _ v3
    rw [e2, Function.update_of_ne v3, e1, Function.update_of_ne v1]
  · rintro k h3 - hk ⟨g3, ex, er, eo⟩
    rw [Ok_bind]
    have : loop n n h3 (fun i h => vwr h r i 0) = some h3 := by rw [loop, Nat.sub_self]; rfl
    rw [this, Ok_some]
    rw [Ok_bind]
    refine (hps r w h3 hwr.symm g3).mono ?_
    rintro h4 ⟨g4, e4⟩
    rw [Ok_bind]
    refine (Ok_vecs_of_elem (z := x) g4 (fun i => h4.el x i + h4.el w i) ?_).mono ?_
    · intro i h' hi hI
      rw [vrd_eq hI hi (g4 x).2]
      simp only [Option.bind_eq_bind, Option.bind_some]
      rw [vrd_eq hI hi (g4 w).2]
      rfl
    rintro h5 ⟨g5, e5⟩
    have hx5 : h5.vecs n x = addsIter A P (h.vecs n b) (k + 1) := by
      rw [e5, Function.update_self]
      show h4.vecs n x + h4.vecs n w = _
      rw [e4, Function.update_self, Function.update_of_ne hxw, ex, er (by omega)]
      rfl
    have ho5 : ∀ v, v ≠ x → v ≠ w → h5.vecs n v = h3.vecs n v := by
      intro v v1 v2
      rw [e5, Function.update_of_ne v1, e4, Function.update_of_ne v2]
    refine (addsResid_spec hmv hxr hbr g5).mono ?_
    rintro h6 ⟨g6, e6⟩
    refine ⟨g6, ?_, ?_, ?_⟩
    · rw [e6]
      split
      · rw [Function.update_of_ne hxr, hx5]
      · exact hx5
    · intro hk'
      rw [e6, if_pos (by omega), Function.update_self, hx5, ho5 b hbx hbw, eo b hbx hbw hbr]
    · intro v v1 v2 v3
      rw [e6]
      split
      · rw [Function.update_of_ne v3, ho5 v v1 v2, eo v v1 v2 v3]
      · rw [ho5 v v1 v2, eo v v1 v2 v3]
  · rintro h' ⟨g', ex, -, eo⟩
    exact ⟨g', ex, eo⟩

/-- the call made by a solver replaces `X` and nothing else, whatever the work vectors of the preconditioner held -/
theorem psolveAddsCall_maps {mv ps : ℕ → ℕ → Vecs R → Option (Vecs R)} {A P : (Fin n → R) → Fin n → R}
    (hmv : MapsVec n mv A) (hA0 : A 0 = 0) (hps : MapsVec n ps P) (iter : ℕ) {wr : Vecs R} (hwr : wr.Good n) :
    MapsVec n (psolveAddsCall mv ps iter n wr) fun b => addsIter A P b (iter + 1) := by
  intro b x h hbx hg
  unfold psolveAddsCall
  rw [Ok_bind]
  obtain ⟨g0, hg0⟩ : ∃ g0 : Vecs R, g0 = fun v => if v = 0 then h b else if v = 1 then h x else wr v := ⟨_, rfl⟩
  have hgood : g0.Good n := by
    subst hg0
    intro v
    simp only
    split
    · exact hg b
    · split
      · exact hg x
      · exact hwr v
  rw [← hg0]
  refine (psolveAdds_spec hmv hA0 hps iter (b := 0) (x := 1) (w := 2) (r := 3) (by decide) (by decide) (by decide)
    (by decide) (by decide) (by decide) hgood).mono ?_
  rintro g ⟨gg, ex, -⟩
  rw [Ok_pure]
  refine ⟨fun v => ?_, ?_⟩
  · simp only
    split
    · exact gg 1
    · exact hg v
  · funext v i
    by_cases hv : v = x
    · subst hv
      rw [Function.update_self]
      have hb0 : g0.vecs n 0 = h.vecs n b := by subst hg0; rfl
      rw [hb0] at ex
      show _ = addsIter A P (h.vecs n b) (iter + 1) i
      rw [← ex]
      simp [Vecs.vecs]
    · rw [Function.update_of_ne hv]
      simp [Vecs.vecs, hv]

end run

/-! ### linear inner preconditioners -/

section linear
variable [CommRing R]

theorem addsIter_congr {A A' P P' : (Fin n → R) → Fin n → R} (hA : ∀ v, A v = A' v) (hP : ∀ v, P v = P' v) (b : Fin n → R)
    (k : ℕ) : addsIter A P b k = addsIter A' P' b k := by
  rw [show A = A' from funext hA, show P = P' from funext hP]

theorem addsMat_succ (A M : Matrix (Fin n) (Fin n) R) (k : ℕ) :
    addsMat A M (k + 1) = (1 - M * A) * addsMat A M k + M := by
  unfold addsMat
  rw [sum_range_succ', mul_sum, pow_zero, one_mul]
  congr 1
  refine sum_congr rfl fun j _ => ?_
  rw [pow_succ', mul_assoc]

/-- **C51 (matrix).** With an inner preconditioner that multiplies by a matrix `M`, `k` refinement steps multiply by
`Σ_{j<k} (I - M A)^j M`. -/
theorem addsIter_eq (A M : Matrix (Fin n) (Fin n) R) (b : Fin n → R) (k : ℕ) :
    addsIter (A *ᵥ ·) (M *ᵥ ·) b k = addsMat A M k *ᵥ b := by
  induction k with
  | zero => simp [addsIter, addsMat]
  | succ k ih =>
    rw [addsIter, ih, addsMat_succ, mulVec_sub, add_mulVec, sub_mul, sub_mulVec, one_mul]
    simp only [mulVec_mulVec, mul_assoc]
    abel

/-- **C51 (residual).** The residual of the result is `(I - A M)^(adds_iter+1) b`. -/
theorem adds_residual (A M : Matrix (Fin n) (Fin n) R) (b : Fin n → R) (k : ℕ) :
    b - A *ᵥ addsIter (A *ᵥ ·) (M *ᵥ ·) b k = (1 - A * M) ^ k *ᵥ b := by
  induction k with
  | zero => simp [addsIter]
  | succ k ih =>
    have : b - A *ᵥ addsIter (A *ᵥ ·) (M *ᵥ ·) b (k + 1) =
        (1 - A * M) *ᵥ (b - A *ᵥ addsIter (A *ᵥ ·) (M *ᵥ ·) b k) := by
      rw [addsIter, sub_mulVec, one_mulVec, mulVec_add, mulVec_mulVec]
      abel
    rw [this, ih, mulVec_mulVec, pow_succ']

/-- **C51 (exactness).** If the inner preconditioner is exact, so is the outer one: `A X = b`. -/
theorem adds_exact {A M : Matrix (Fin n) (Fin n) R} (hAM : A * M = 1) (b : Fin n → R) (k : ℕ) :
    A *ᵥ addsIter (A *ᵥ ·) (M *ᵥ ·) b (k + 1) = b := by
  have h := adds_residual A M b (k + 1)
  rw [hAM, sub_self, zero_pow (by omega), zero_mulVec] at h
  exact (sub_eq_zero.1 h).symm

theorem addsMat_push (A M : Matrix (Fin n) (Fin n) R) (j : ℕ) : (1 - M * A) ^ j * M = M * (1 - A * M) ^ j := by
  induction j with
  | zero => simp
  | succ j ih => rw [pow_succ', mul_assoc, ih, pow_succ' (1 - A * M), ← mul_assoc, ← mul_assoc]; congr 1; noncomm_ring

/-- **C51 (adjoint).** `lis_psolveh_adds` — refinement with `Aᴴ` and the inner `psolveh` — multiplies by the conjugate
transpose of the matrix `lis_psolve_adds` multiplies by. -/
theorem adds_adjoint [StarRing R] (A M : Matrix (Fin n) (Fin n) R) (b : Fin n → R) (k : ℕ) :
    addsIter (Aᴴ *ᵥ ·) (Mᴴ *ᵥ ·) b k = (addsMat A M k)ᴴ *ᵥ b := by
  rw [addsIter_eq]
  congr 1
  unfold addsMat
  rw [conjTranspose_sum]
  refine sum_congr rfl fun j _ => ?_
  rw [addsMat_push Aᴴ Mᴴ, conjTranspose_mul, conjTranspose_pow, conjTranspose_sub, conjTranspose_one, conjTranspose_mul]

end linear

/-! ### symmetric positive definite systems -/

section spd
variable [Field R] [LinearOrder R] [IsStrictOrderedRing R]

theorem addsMat_symm {A M : Matrix (Fin n) (Fin n) R} (hA : Aᵀ = A) (hM : Mᵀ = M) (k : ℕ) :
    (addsMat A M k)ᵀ = addsMat A M k := by
  unfold addsMat
  rw [transpose_sum]
  refine sum_congr rfl fun j _ => ?_
  rw [transpose_mul, transpose_pow, transpose_sub, transpose_one, transpose_mul, hA, hM, addsMat_push]

theorem addsMat_sq {A M : Matrix (Fin n) (Fin n) R} (hA : Aᵀ = A) (hM : Mᵀ = M) (i : ℕ) :
    (1 - M * A) ^ i * M * ((1 - M * A) ^ i)ᵀ = (1 - M * A) ^ (2 * i) * M := by
  rw [transpose_pow, transpose_sub, transpose_one, transpose_mul, hA, hM, mul_assoc, ← addsMat_push, ← mul_assoc, ← pow_add,
    two_mul]

theorem addsMat_two {A M : Matrix (Fin n) (Fin n) R} (hA : Aᵀ = A) (hM : Mᵀ = M) (m : ℕ) :
    addsMat A M (2 * m + 1) + addsMat A M (2 * m + 1) = M + (1 - M * A) ^ m * M * ((1 - M * A) ^ m)ᵀ +
      ∑ i ∈ range m, ((1 - M * A) ^ i * (2 - M * A)) * M * ((1 - M * A) ^ i * (2 - M * A))ᵀ := by
  induction m with
  | zero => simp [addsMat]
  | succ m ih =>
    obtain ⟨E, hE⟩ : ∃ E, E = 1 - M * A := ⟨_, rfl⟩
    have h2 : 2 - M * A = 1 + E := by rw [hE, ← one_add_one_eq_two]; abel
    have hN : ∀ k, addsMat A M (k + 1) = addsMat A M k + E ^ k * M := by
      intro k; unfold addsMat; rw [sum_range_succ, hE]
    have hq : ∀ i, E ^ i * M * (E ^ i)ᵀ = E ^ (2 * i) * M := by intro i; rw [hE]; exact addsMat_sq hA hM i
    have hp : ∀ i, M * (E ^ i)ᵀ = E ^ i * M := by
      intro i
      rw [hE, transpose_pow, transpose_sub, transpose_one, transpose_mul, hA, hM, addsMat_push]
    have hs : ∀ i, (E ^ i * (2 - M * A)) * M * (E ^ i * (2 - M * A))ᵀ =
        E ^ (2 * i) * M + E ^ (2 * i + 1) * M + E ^ (2 * i + 1) * M + E ^ (2 * i + 2) * M := by
      intro i
      have e1 : E ^ i * (2 - M * A) = E ^ i + E ^ (i + 1) := by rw [h2, mul_add, mul_one, pow_succ]
      rw [e1, transpose_add, mul_assoc, mul_add, hp, hp, add_mul, mul_add, mul_add, ← mul_assoc, ← mul_assoc, ← mul_assoc,
        ← mul_assoc, ← pow_add, ← pow_add, ← pow_add, ← pow_add, show i + i = 2 * i by ring,
        show i + (i + 1) = 2 * i + 1 by ring, show i + 1 + i = 2 * i + 1 by ring, show i + 1 + (i + 1) = 2 * i + 2 by ring]
      abel
    rw [sum_range_succ, show 2 * (m + 1) + 1 = 2 * m + 1 + 1 + 1 by ring, hN, hN]
    rw [← hE] at ih ⊢
    rw [hs, hq]
    rw [hq] at ih
    have h3 : addsMat A M (2 * m + 1) + addsMat A M (2 * m + 1) - M - E ^ (2 * m) * M =
      ∑ i ∈ range m, E ^ i * (2 - M * A) * M * (E ^ i * (2 - M * A))ᵀ := by rw [ih]; abel
    rw [← h3, show 2 * (m + 1) = 2 * m + 2 by ring]
    abel

theorem quad_nonneg {M : Matrix (Fin n) (Fin n) R} (hM : Spd M) (x : Fin n → R) : 0 ≤ x ⬝ᵥ M *ᵥ x := by
  by_cases hx : x = 0
  · subst hx; simp
  · exact (hM.pos x hx).le

theorem quad_congr (M F : Matrix (Fin n) (Fin n) R) (x : Fin n → R) :
    x ⬝ᵥ (F * M * Fᵀ) *ᵥ x = (Fᵀ *ᵥ x) ⬝ᵥ M *ᵥ (Fᵀ *ᵥ x) := by
  rw [← mulVec_mulVec, ← mulVec_mulVec, dotProduct_mulVec x F, ← mulVec_transpose]

/-- **C51 (CG).** With `adds_iter` even, additive Schwarz preconditioning of a symmetric matrix is symmetric positive
definite whenever the inner preconditioner is, as CG requires. -/
theorem adds_spd_even {A M : Matrix (Fin n) (Fin n) R} (hA : Aᵀ = A) (hM : Spd M) (m : ℕ) :
    Spd (addsMat A M (2 * m + 1)) := by
  refine ⟨addsMat_symm hA hM.symm _, fun x hx => ?_⟩
  have h := congrArg (fun B => x ⬝ᵥ B *ᵥ x) (addsMat_two hA hM.symm m)
  simp only [add_mulVec, dotProduct_add, sum_mulVec, dotProduct_sum, quad_congr] at h
  have h1 := hM.pos x hx
  have h2 := quad_nonneg hM (((1 - M * A) ^ m)ᵀ *ᵥ x)
  have h3 : 0 ≤ ∑ i ∈ range m, (((1 - M * A) ^ i * (2 - M * A))ᵀ *ᵥ x) ⬝ᵥ M *ᵥ (((1 - M * A) ^ i * (2 - M * A))ᵀ *ᵥ x) :=
    sum_nonneg fun i _ => quad_nonneg hM _
  linarith

end spd

/-! ### with the kernels of Lis -/

theorem matMul_mulVec [CommRing R] (a : ℕ → ℕ → R) (v : Fin n → R) : matMul a v = toMat n a *ᵥ v := rfl

/-- **C51 with CG.** CG with `-adds true`, an even `-adds_iter` and an inner preconditioner that multiplies by a symmetric
positive definite matrix keeps the guarantees of C44: success within `n` iterations, documented condition met, error in the
energy norm not increased. -/
theorem cg_adds_spd {a : ℕ → ℕ → ℝ} (hA : Spd (toMat n a)) {mv mvh : Arr ℝ → Arr ℝ → Option (Arr ℝ)}
    (hmv : IsMatvec n a mv) (hmvh : IsMatvech n a mvh) {ps psh : ℕ → ℕ → Vecs ℝ → Option (Vecs ℝ)}
    {mps mpsh : (Fin n → ℝ) → Fin n → ℝ} (hps : MapsVec n ps mps) (hpsh : MapsVec n psh mpsh)
    {M : Matrix (Fin n) (Fin n) ℝ} (hM : Spd M) (hmps : ∀ x, mps x = M *ᵥ x) (m : ℕ) {wr : Vecs ℝ} (hwr : wr.Good n)
    {omp ompS : Option (OmpRun ℝ)} (ho : GoodRun n omp) (hoS : GoodRun n ompS)
    (o : Opts ℝ ℝ) (ht : 0 ≤ o.tol) (hw : o.conv = .nrm1B → o.tol ≤ o.tolW) (hmax : n ≤ o.maxiter) (junk : ℝ)
    {h : Vecs ℝ} (hg : h.Good n) {hist : Arr ℝ} (hsz : o.maxiter < hist.size)
    (hz : o.initZero → ∀ i, i < n → h.el hX i = 0) :
    Ok ((lisCg junk o).exec (krylovKit mv mvh (psolveAddsCall (onArr mv) ps (2 * m) n wr)
        (psolveAddsCall (onArr mvh) psh (2 * m) n wr) Real.sqrt abs omp ompS) ⟨h, hist⟩) fun r =>
      r.1.ret = .success ∧ (r.1.iter ≤ n ∨ r.1.iter = 1) ∧
      CsrMeets n a Real.sqrt abs o (h.el hB) (h.el hX) (r.2.h.el hX) ∧
      ∀ xs : Fin n → ℝ, toMat n a *ᵥ xs = (fun i : Fin n => h.el hB i) →
        energy (toMat n a) xs (fun i => r.2.h.el hX i) ≤ energy (toMat n a) xs (fun i => h.el hX i) := by
  have m1 : MapsVec n (onArr mv) (matMul a) :=
    onArr_maps fun x y hx hy => (hmv x y hx hy).mono fun y' h => ⟨h.1, fun i => h.2.matMul i⟩
  have m2 : MapsVec n (onArr mvh) (matMulH a) :=
    onArr_maps fun x y hx hy => (hmvh x y hx hy).mono fun y' h => ⟨h.1, fun i => h.2.matMulH i⟩
  have z1 : matMul a (0 : Fin n → ℝ) = 0 := by funext i; simp [matMul]
  have z2 : matMulH a (0 : Fin n → ℝ) = 0 := by funext i; simp [matMulH]
  refine cg_array_spd hA hmv hmvh (psolveAddsCall_maps m1 z1 hps (2 * m) hwr) (psolveAddsCall_maps m2 z2 hpsh (2 * m) hwr)
    (adds_spd_even hA.symm hM m) (fun b => ?_) ho hoS o ht hw hmax junk hg hsz hz
  show addsIter (matMul a) mps b (2 * m + 1) = _
  exact (addsIter_congr (A' := (toMat n a *ᵥ ·)) (P' := (M *ᵥ ·)) (fun v => matMul_mulVec a v) hmps b _).trans
    (addsIter_eq _ _ _ _)

/-! ### examples and findings -/

/-- `[[1,9/10,9/10],[9/10,1,9/10],[9/10,9/10,1]]` -/
def addsEx : Csr ℚ := ⟨3, 3, 9, .ofList [0, 3, 6, 9], .ofList [0, 1, 2, 0, 1, 2, 0, 1, 2],
  .ofList [1, 9/10, 9/10, 9/10, 1, 9/10, 9/10, 9/10, 1]⟩

theorem addsEx_wf : addsEx.WF := ⟨⟨by decide, rfl, by decide, rfl⟩, by decide, by decide, by decide⟩

theorem addsEx_mat : toMat 3 addsEx.entry = !![1, 9/10, 9/10; 9/10, 1, 9/10; 9/10, 9/10, 1] := by
  funext i j
  fin_cases i <;> fin_cases j <;> decide +kernel

theorem addsEx_spd : Spd (toMat 3 addsEx.entry) := by
  rw [addsEx_mat]
  refine ⟨by decide +kernel, fun x hx => ?_⟩
  have h : x ⬝ᵥ !![1, 9/10, 9/10; 9/10, 1, 9/10; 9/10, 9/10, (1 : ℚ)] *ᵥ x =
      1/10 * (x 0 ^ 2 + x 1 ^ 2 + x 2 ^ 2) + 9/10 * (x 0 + x 1 + x 2) ^ 2 := by
    simp [dotProduct, mulVec, Fin.sum_univ_succ]
    ring
  rw [h]
  have h0 : ¬ (x 0 = 0 ∧ x 1 = 0 ∧ x 2 = 0) := by
    rintro ⟨a, b, c⟩
    exact hx (by funext i; fin_cases i <;> assumption)
  have h1 : 0 < x 0 ^ 2 + x 1 ^ 2 + x 2 ^ 2 := by
    by_contra hc
    refine h0 ⟨?_, ?_, ?_⟩ <;> rw [← sq_eq_zero_iff] <;> linarith [sq_nonneg (x 0), sq_nonneg (x 1), sq_nonneg (x 2)]
  linarith [sq_nonneg (x 0 + x 1 + x 2)]

/-- vectors of length 3 with given contents, others hold `[7,7,7]` -/
def addsHeap (b : List ℚ) : Vecs ℚ := fun v => ⟨3, .ofList (if v = 0 then b else [7, 7, 7])⟩

/-- the Jacobi preconditioner of `addsEx` (its diagonal is one) -/
def addsJac : ℕ → ℕ → Vecs ℚ → Option (Vecs ℚ) := psolveJacobi id 3 (.ofList [1, 1, 1])

/-- the hypotheses of `psolveAddsCall_maps` are met -/
example : MapsVec 3 (psolveAddsCall (onArr (matvecCsr addsEx)) addsJac 1 3 (addsHeap [5, 5, 5])) fun b =>
    addsIter (matMul addsEx.entry) (fun v i => v i * (Arr.ofList [(1 : ℚ), 1, 1]).get i) b 2 :=
  psolveAddsCall_maps
    (onArr_maps fun x y hx hy =>
      (isMatvec_csr addsEx_wf rfl x y hx hy).mono fun y' h => ⟨h.1, fun i => h.2.matMul i⟩)
    (by funext i; simp [matMul]) (psolveJacobi_maps id (by decide)) 1
    (fun v => ⟨rfl, by unfold addsHeap; split <;> decide⟩)

/-- the hypotheses of `adds_spd_even` are met -/
example : Spd (addsMat (toMat 3 addsEx.entry) 1 3) :=
  adds_spd_even addsEx_spd.symm ⟨by simp, fun x hx => by
    rw [one_mulVec]
    have h0 : ¬ (x 0 = 0 ∧ x 1 = 0 ∧ x 2 = 0) := by
      rintro ⟨a, b, c⟩
      exact hx (by funext i; fin_cases i <;> assumption)
    have h : x ⬝ᵥ x = x 0 ^ 2 + x 1 ^ 2 + x 2 ^ 2 := by simp [dotProduct, Fin.sum_univ_succ]; ring
    rw [h]
    by_contra hc
    refine h0 ⟨?_, ?_, ?_⟩ <;> rw [← sq_eq_zero_iff] <;> linarith [sq_nonneg (x 0), sq_nonneg (x 1), sq_nonneg (x 2)]⟩ 1

/-- Finding: with the default `-adds_iter 1` the preconditioner `2M - MAM` need not be positive definite although matrix and
inner preconditioner are: for this matrix, the Jacobi preconditioner and `b = (1,1,1)` the result is `X = -(4/5)(1,1,1)`, so
that `bᵀ X < 0`, and CG's requirement is violated. -/
theorem adds_default_not_spd : Spd (toMat 3 addsEx.entry) ∧
    ((psolveAddsCall (onArr (matvecCsr addsEx)) addsJac 1 3 (addsHeap [5, 5, 5]) 0 1 (addsHeap [1, 1, 1])).map fun h =>
      (h 1).value.toList) = some [-4/5, -4/5, -4/5] :=
  ⟨addsEx_spd, by decide +kernel⟩

end Lis
