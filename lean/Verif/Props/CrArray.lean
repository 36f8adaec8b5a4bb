import Verif.Props.CgArray
import Verif.Props.CrExact

/-!
# C46 on arrays
-/

namespace Lis
variable {n : ℕ}
open Matrix

theorem residSq_one {a : ℕ → ℕ → ℝ} {b x : ℕ → ℝ} : residSq (toMat n a) 1 (fun i => b i) (fun i => x i) =
    ∑ i ∈ Finset.range n, (b i - ∑ j ∈ Finset.range n, a i j * x j) ^ 2 := by
  unfold residSq
  rw [one_mulVec]
  simp only [dotProduct, mulVec, Finset.sum_range, Pi.sub_apply, pow_two]

/-- **C46 on arrays.** CR with product kernels for any storage format of a symmetric positive definite matrix and any
preconditioner that multiplies by a symmetric positive definite matrix `M`; `maxiter ≥ n`; exact real arithmetic: the run
stays inside its arrays, returns `LIS_SUCCESS` after at most `n` iterations (or 1), `x` meets the documented condition,
and its residual in the norm of `M` is at most that of the initial guess. -/
theorem cr_array_spd {a : ℕ → ℕ → ℝ} (hA : Spd (toMat n a)) {mv mvh : Arr ℝ → Arr ℝ → Option (Arr ℝ)}
    (hmv : IsMatvec n a mv) (hmvh : IsMatvech n a mvh)
    {ps psh : ℕ → ℕ → Vecs ℝ → Option (Vecs ℝ)} {mps mpsh : (Fin n → ℝ) → Fin n → ℝ}
    (hps : MapsVec n ps mps) (hpsh : MapsVec n psh mpsh) {M : Matrix (Fin n) (Fin n) ℝ} (hM : Spd M)
    (hmps : ∀ x, mps x = M *ᵥ x) {omp ompS : Option (OmpRun ℝ)} (ho : GoodRun n omp) (hoS : GoodRun n ompS)
    (o : Opts ℝ ℝ) (ht : 0 ≤ o.tol) (hw : o.conv = .nrm1B → o.tol ≤ o.tolW) (hmax : n ≤ o.maxiter) (junk : ℝ)
    {h : Vecs ℝ} (hg : h.Good n) {hist : Arr ℝ} (hsz : o.maxiter < hist.size)
    (hz : o.initZero → ∀ i, i < n → h.el hX i = 0) :
    Ok ((lisCr junk o).exec (krylovKit mv mvh ps psh Real.sqrt abs omp ompS) ⟨h, hist⟩) fun r =>
      r.1.ret = .success ∧ (r.1.iter ≤ n ∨ r.1.iter = 1) ∧
      CsrMeets n a Real.sqrt abs o (h.el hB) (h.el hX) (r.2.h.el hX) ∧
      residSq (toMat n a) M (fun i => h.el hB i) (fun i => r.2.h.el hX i) ≤
        residSq (toMat n a) M (fun i => h.el hB i) (fun i => h.el hX i) := by
  have hK := krylovMath_exact (a := a) (sqrt := Real.sqrt) (fabs := abs) (mpsh := mpsh) hmps
  obtain ⟨K, hKe⟩ : ∃ K, K = krylovMath a Real.sqrt abs mps mpsh := ⟨_, rfl⟩
  rw [← hKe] at hK
  have h2 : ∀ v, 0 ≤ K.nrm2 v := fun v => by rw [hKe]; exact Real.sqrt_nonneg _
  have h1 : ∀ v, 0 ≤ K.nrm1 v := fun v => by rw [hKe]; show (0 : ℝ) ≤ ∑ i, |v i|; exact Finset.sum_nonneg fun i _ => abs_nonneg (v i)
  have z2 : K.nrm2 0 = 0 := by rw [hKe]; simp [mathKit]
  have z1 : K.nrm1 0 = 0 := by rw [hKe]; simp [mathKit]
  have key := lisCr_spd hK hA hM h2 h1 z2 z1 o ht hw junk ⟨h.vecs n, hist⟩ hsz hmax
    (fun hi => funext fun i => hz hi i i.2)
  refine (Prog.exec_refines (krylovKit_implements hmv hmvh hps hpsh Real.sqrt abs ho hoS) (lisCr junk o)
    (Q := fun out s' => out.ret = .success ∧ (out.iter ≤ n ∨ out.iter = 1) ∧
      MeetsTol K o (h.vecs n hB) (h.vecs n hX) (s'.h hX) ∧
      residSq (toMat n a) M (h.vecs n hB) (s'.h hX) ≤ residSq (toMat n a) M (h.vecs n hB) (h.vecs n hX))
    hg (hKe ▸ key)).mono ?_
  rintro r ⟨-, q1, q2, q3, q4⟩
  rw [hKe] at q3
  exact ⟨q1, q2, q3.csr, q4⟩

/-- **… without preconditioner**: the Euclidean norm of the residual does not grow -/
theorem cr_csr_none_spd {A : Csr ℝ} (hA : A.WF) (hnp : A.np = A.n) (hS : Spd (toMat A.n A.entry))
    {omp ompS : Option (OmpRun ℝ)} (ho : GoodRun A.n omp) (hoS : GoodRun A.n ompS)
    (o : Opts ℝ ℝ) (ht : 0 ≤ o.tol) (hw : o.conv = .nrm1B → o.tol ≤ o.tolW) (hmax : A.n ≤ o.maxiter) (junk : ℝ)
    {h : Vecs ℝ} (hg : h.Good A.n) {hist : Arr ℝ} (hsz : o.maxiter < hist.size)
    (hz : o.initZero → ∀ i, i < A.n → h.el hX i = 0) :
    Ok ((lisCr junk o).exec (krylovKit (matvecCsr A) (matvechCsr A) psolveNone psolveNone Real.sqrt abs omp ompS) ⟨h, hist⟩)
      fun r => r.1.ret = .success ∧ (r.1.iter ≤ A.n ∨ r.1.iter = 1) ∧
        CsrMeets A.n A.entry Real.sqrt abs o (h.el hB) (h.el hX) (r.2.h.el hX) ∧
        ∑ i ∈ Finset.range A.n, (h.el hB i - ∑ j ∈ Finset.range A.n, A.entry i j * r.2.h.el hX j) ^ 2 ≤
          ∑ i ∈ Finset.range A.n, (h.el hB i - ∑ j ∈ Finset.range A.n, A.entry i j * h.el hX j) ^ 2 :=
  (cr_array_spd hS (isMatvec_csr hA hnp) (isMatvech_csr hA hnp) (psolveNone_maps A.n) (psolveNone_maps A.n) Spd.one
    (fun x => (one_mulVec x).symm) ho hoS o ht hw hmax junk hg hsz hz).mono fun _ q => ⟨q.1, q.2.1, q.2.2.1, by
    have := q.2.2.2
    rwa [residSq_one, residSq_one] at this⟩

/-- **… with the Jacobi preconditioner** (whose diagonal is positive, the matrix being positive definite) **.** -/
theorem cr_csr_jacobi_spd {A : Csr ℝ} (hA : A.WF) (hnp : A.np = A.n) (hS : Spd (toMat A.n A.entry))
    (hd : ∀ i, i < A.n → A.StoresDiag i → A.DiagOnce i) {pj : Arr ℝ} (hj : A.n ≤ pj.size)
    {omp ompS : Option (OmpRun ℝ)} (ho : GoodRun A.n omp) (hoS : GoodRun A.n ompS)
    (o : Opts ℝ ℝ) (ht : 0 ≤ o.tol) (hw : o.conv = .nrm1B → o.tol ≤ o.tolW) (hmax : A.n ≤ o.maxiter) (junk : ℝ)
    {h : Vecs ℝ} (hg : h.Good A.n) {hist : Arr ℝ} (hsz : o.maxiter < hist.size)
    (hz : o.initZero → ∀ i, i < A.n → h.el hX i = 0) :
    Ok (do
      let d ← createJacobi (getDiagonalCsr A) A.n pj
      (lisCr junk o).exec (krylovKit (matvecCsr A) (matvechCsr A) (psolveJacobi id A.n d) (psolveJacobi star A.n d)
        Real.sqrt abs omp ompS) ⟨h, hist⟩)
      fun r => r.1.ret = .success ∧ (r.1.iter ≤ A.n ∨ r.1.iter = 1) ∧
        CsrMeets A.n A.entry Real.sqrt abs o (h.el hB) (h.el hX) (r.2.h.el hX) := by
  rw [Ok_bind]
  refine (createJacobi_spec hA hd hj).mono ?_
  rintro d ⟨s, g⟩
  refine (cr_array_spd hS (isMatvec_csr hA hnp) (isMatvech_csr hA hnp) (psolveJacobi_maps id (by omega))
    (psolveJacobi_maps star (by omega)) (M := diagonal fun i : Fin A.n => d.get i) (Spd.diagonal fun i => ?_) (fun x => ?_)
    ho hoS o ht hw hmax junk hg hsz hz).mono fun _ q => ⟨q.1, q.2.1, q.2.2.1⟩
  · rw [g i i.2]
    exact one_div_pos.2 (hS.diag i)
  · funext i
    rw [mulVec_diagonal, id, mul_comm]

/-- **… with the SSOR preconditioner** (`w > 0`; the matrix is split) **.** -/
theorem cr_csr_ssor_spd {A : SplitCsr ℝ} (hA : A.WF) (hs : A.Strict) (hnp : A.np = A.n)
    (hS : Spd (toMat A.n A.entry)) {w : ℝ} (hw0 : 0 < w) {pj : Arr ℝ} (hj : A.n ≤ pj.size)
    {omp ompS : Option (OmpRun ℝ)} (ho : GoodRun A.n omp) (hoS : GoodRun A.n ompS)
    (o : Opts ℝ ℝ) (ht : 0 ≤ o.tol) (hw : o.conv = .nrm1B → o.tol ≤ o.tolW) (hmax : A.n ≤ o.maxiter) (junk : ℝ)
    {h : Vecs ℝ} (hg : h.Good A.n) {hist : Arr ℝ} (hsz : o.maxiter < hist.size)
    (hz : o.initZero → ∀ i, i < A.n → h.el hX i = 0) :
    Ok (do
      let wd ← makeWd w A.n A.D pj
      (lisCr junk o).exec (krylovKit (matvecSplitCsr A) (matvechSplitCsr A) (solveSsorCsr A wd) (solvehSsorCsr star A wd)
        Real.sqrt abs omp ompS) ⟨h, hist⟩)
      fun r => r.1.ret = .success ∧ (r.1.iter ≤ A.n ∨ r.1.iter = 1) ∧
        CsrMeets A.n A.entry Real.sqrt abs o (h.el hB) (h.el hX) (r.2.h.el hX) := by
  rw [Ok_bind]
  have := hA.dsz
  have hdiag : ∀ i, i < A.n → 0 < A.D.get i := by
    intro i hi
    have := hS.diag ⟨i, hi⟩
    simp only [toMat, SplitCsr.entry] at this
    rw [SplitCsr.low_zero hs i i hi le_rfl, SplitCsr.up_zero hs i i hi le_rfl] at this
    simpa using this
  refine (makeWd_spec w (by omega) hj).mono ?_
  rintro wd ⟨s, g⟩
  have hwd : ∀ i, i < A.n → w * A.D.get i * wd.get i = 1 := fun i hi => by
    rw [g i hi, mul_one_div_cancel (mul_pos hw0 (hdiag i hi)).ne']
  obtain ⟨m, hm, hmm⟩ := solveSsor_maps hA hs (wd := wd) (by omega) hwd
  obtain ⟨m', hm'⟩ := solvehSsor_maps hA hs hnp (wd := wd) (by omega) hwd
  obtain ⟨M, hM, hMe⟩ := ssor_spd (D := fun i => w * A.D.get i) (fun i hi => mul_pos hw0 (hdiag i hi)) hwd
    (fun i j hi hij => SplitCsr.low_zero hs i j hi hij) (fun i j hi hij => SplitCsr.up_zero hs i j hi hij)
    (fun i j hi hj => by
      rcases Nat.lt_or_ge i j with hij | hij
      · have e := congrFun (congrFun hS.symm ⟨i, hi⟩) ⟨j, hj⟩
        simp only [transpose_apply, toMat, SplitCsr.entry] at e
        rw [SplitCsr.up_zero hs j i hj hij.le, SplitCsr.low_zero hs i j hi hij.le, if_neg (by omega),
          if_neg (by omega)] at e
        linarith
      · rw [SplitCsr.up_zero hs i j hi hij, SplitCsr.low_zero hs j i hj hij]) hm
  exact (cr_array_spd hS (isMatvec_split hA hnp) (isMatvech_split hA hnp) hmm hm' hM hMe ho hoS o ht hw hmax junk hg hsz
    hz).mono fun _ q => ⟨q.1, q.2.1, q.2.2.1⟩


end Lis
