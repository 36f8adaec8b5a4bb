import Verif.Props.ArraySolver

/-!
# C26 at the level of arrays: Jacobi, Gauss-Seidel and SOR on a CSR matrix
-/

namespace Lis
open Finset
variable {R : Type} {n : ℕ}

/-- one sweep with `M = D + a` (`a` strictly triangular, or zero) and no preconditioner: `M (x' - x) = b - A x` -/
theorem sweep_correction [CommRing R] [Star R] {S : Type} [AddCommMonoid S] {a t : ℕ → ℕ → R} {D : ℕ → R}
    {m : (Fin n → R) → Fin n → R} (hm : ∀ r, TriRel D t (m r) r) (sqrt fabs : R → S)
    (psh ls : (Fin n → R) → Fin n → R) (rdg : Fin n → R) (b x : Fin n → R) :
    TriRel D t (fun i => sweep (mathKit a sqrt fabs id psh ls rdg) m b x i - x i) (fun i => b i - matMul a x i) := by
  have e : (fun i => sweep (mathKit a sqrt fabs id psh ls rdg) m b x i - x i) = m fun i => b i - matMul a x i := by
    funext i
    have e2 : (fun j => -1 * matMul a x j + b j) = fun i => b i - matMul a x i := by funext j; ring
    show x i + 1 * m (fun j => -1 * matMul a x j + b j) i - x i = _
    rw [e2]; ring
  rw [e]
  exact hm _

/-- a fixed point of the sweep solves the system (and conversely, when `M y = 0` only for `y = 0`) -/
theorem sweep_fixed [CommRing R] [Star R] {S : Type} [AddCommMonoid S] {a t : ℕ → ℕ → R} {D : ℕ → R}
    {m : (Fin n → R) → Fin n → R} (hm : ∀ r, TriRel D t (m r) r) (sqrt fabs : R → S)
    (psh ls : (Fin n → R) → Fin n → R) (rdg : Fin n → R) (b x : Fin n → R)
    (hx : sweep (mathKit a sqrt fabs id psh ls rdg) m b x = x) : matMul a x = b := by
  have h := sweep_correction (a := a) hm sqrt fabs psh ls rdg b x
  rw [hx] at h
  funext i
  have := h i
  simp only [matMul, sub_self, mul_zero, Finset.sum_const_zero, add_zero] at this
  have e : b i = matMul a x i := by unfold matMul; linear_combination -this
  exact e.symm

/-- what a stationary solver with splitting `M = D + t` does on arrays: there is a sequence `x₀, x₁, …` starting with the
given `x` and obeying `M (x_{k+1} - x_k) = b - A x_k`; the returned vector is `x_k` for the reported number `k` of
iterations (`maxiter` when it gave up); the residual reported is that of the iterate before the last. -/
def StationaryArray [CommRing R] [Star R] (n : ℕ) (a t : ℕ → ℕ → R) (D : ℕ → R) (sqrt : R → ℝ) (o : Opts R ℝ)
    (junk : ℝ) (b x0 : ℕ → R) (x' : ℕ → R) (out : Out ℝ) : Prop :=
  ∃ X : ℕ → ℕ → R, (∀ i, i < n → X 0 i = x0 i) ∧
    (∀ k i, i < n → D i * (X (k + 1) i - X k i) + ∑ j ∈ range n, t i j * (X (k + 1) j - X k j) =
      b i - ∑ j ∈ range n, a i j * X k j) ∧
    let res k := sqrt (∑ i ∈ range n, star (b i - ∑ j ∈ range n, a i j * X k j) * (b i - ∑ j ∈ range n, a i j * X k j)) /
      sqrt (∑ i ∈ range n, star (b i) * b i)
    (∀ k, k + 1 < out.iter → ¬ res k ≤ o.tol) ∧
    ((out.ret = .success ∧ 1 ≤ out.iter ∧ out.iter ≤ o.maxiter ∧ out.resid = res (out.iter - 1) ∧ out.resid ≤ o.tol ∧
        ∀ i, i < n → x' i = X out.iter i) ∨
      (out.ret = .maxiter ∧ out.iter = o.maxiter + 1 ∧ (out.resid = if o.maxiter = 0 then junk else res (o.maxiter - 1)) ∧
        ∀ i, i < n → x' i = X o.maxiter i))

theorem StationaryRun.array [CommRing R] [Star R] {a t : ℕ → ℕ → R} {D : ℕ → R} {sqrt fabs : R → ℝ}
    {m : (Fin n → R) → Fin n → R} (hm : ∀ r, TriRel D t (m r) r) {psh ls : (Fin n → R) → Fin n → R} {rdg : Fin n → R}
    {o : Opts R ℝ} {junk : ℝ} {h h' : Vecs R} {hist hist' : Arr ℝ} {out : Out ℝ}
    (hr : StationaryRun (mathKit a sqrt fabs id psh ls rdg) m o junk ⟨h.vecs n, hist⟩ ⟨h'.vecs n, hist'⟩ out) :
    StationaryArray n a t D sqrt o junk (h.el hB) (h.el hX) (h'.el hX) out := by
  let X : ℕ → Fin n → R := fun k => (sweep (mathKit a sqrt fabs id psh ls rdg) m (h.vecs n hB))^[k] (h.vecs n hX)
  have hX' : ∀ k, X (k + 1) = sweep (mathKit a sqrt fabs id psh ls rdg) m (h.vecs n hB) (X k) :=
    fun k => Function.iterate_succ_apply' _ _ _
  let ext : (Fin n → R) → ℕ → R := fun v i => if hi : i < n then v ⟨i, hi⟩ else 0
  have hext : ∀ (v : Fin n → R) (i : Fin n), ext v i = v i := fun v i => by simp [ext]
  have hres : ∀ k, sweepRes (mathKit a sqrt fabs id psh ls rdg) (h.vecs n hB) (X k) =
      sqrt (∑ i ∈ range n, star (h.el hB i - ∑ j ∈ range n, a i j * ext (X k) j) *
        (h.el hB i - ∑ j ∈ range n, a i j * ext (X k) j)) / sqrt (∑ i ∈ range n, star (h.el hB i) * h.el hB i) := by
    intro k
    simp only [Finset.sum_range, hext]
    have e2 : ∀ j, -1 * matMul a (X k) j + h.vecs n hB j = h.el hB j - ∑ l : Fin n, a j l * X k l := by
      intro j; simp only [matMul, Vecs.vecs, Vecs.el]; ring
    simp only [sweepRes, mathKit, id, e2]
    rw [mul_one_div]; rfl
  refine ⟨fun k => ext (X k), ?_, ?_, ?_, ?_⟩
  · intro i hi
    exact hext (X 0) ⟨i, hi⟩
  · intro k i hi
    have := sweep_correction (a := a) hm sqrt fabs psh ls rdg (h.vecs n hB) (X k) ⟨i, hi⟩
    rw [← hX' k] at this
    simp only [Finset.sum_range, hext]
    simp only [ext, hi, dif_pos]
    exact this
  · intro k hk
    have := hr.fails k hk
    rw [show (sweep (mathKit a sqrt fabs id psh ls rdg) m (h.vecs n hB))^[k] (h.vecs n hX) = X k from rfl, hres k] at this
    exact this
  · rcases hr.cases with ⟨h1, h2, h3, h4, h5, h6⟩ | ⟨h1, h2, h3, h4⟩
    · refine .inl ⟨h1, h2, h3, ?_, h5, fun i hi => ?_⟩
      · rw [h4]; exact hres _
      · have := congrFun h6 ⟨i, hi⟩
        exact this.trans (hext (X out.iter) ⟨i, hi⟩).symm
    · refine .inr ⟨h1, h2, ?_, fun i hi => ?_⟩
      · rw [h3]
        by_cases h0 : o.maxiter = 0
        · rw [if_pos h0, if_pos h0]
        · rw [if_neg h0, if_neg h0]; exact hres _
      · have := congrFun h4 ⟨i, hi⟩
        exact this.trans (hext (X o.maxiter) ⟨i, hi⟩).symm

theorem rdiagOn_maps [One R] [Div R] {getd : Arr R → Option (Arr R)} {dd : ℕ → R}
    (hd : ∀ d : Arr R, n ≤ d.size → Ok (getd d) fun d' => d'.size = d.size ∧ ∀ i, i < n → d'.get i = dd i)
    (x : ℕ) (h : Vecs R) (hg : h.Good n) :
    Ok (rdiagOn getd x h) fun h' => h'.Good n ∧
      h'.vecs n = Function.update (h.vecs n) x fun i : Fin n => 1 / dd i := by
  unfold rdiagOn createJacobi
  simp only [Ok_bind]
  have hx := hg x
  refine (hd _ hx.2).mono ?_
  rintro d ⟨s1, g1⟩
  refine (recipArr_spec (by omega)).mono ?_
  rintro d' ⟨s2, g2, -⟩
  rw [Ok_pure]
  refine ⟨good_set hg (by omega), ?_⟩
  rw [vecs_set]
  congr 1
  funext i
  rw [g2 i (by omega), g1 i i.2]

variable [Field R] [StarRing R]

/-- the kit of a stationary solver on a split CSR matrix, without preconditioner -/
def stationaryKit (A : SplitCsr R) (wd : Arr R) (sqrt fabs : R → ℝ) (omp : Option (OmpRun R)) (ompS : Option (OmpRun ℝ)) :
    AKit R ℝ :=
  arrayKit (matvecSplitCsr A) (matvechSplitCsr A) psolveNone psolveNone (solveLowerCsr A wd)
    (rdiagOn (getDiagonalSplitCsr A)) sqrt fabs omp ompS

theorem lower_stationary {A : SplitCsr R} (hA : A.WF) (hs : A.Strict) (hnp : A.np = A.n) {wd : Arr R}
    (hw : A.n ≤ wd.size) {D : ℕ → R} (hwd : ∀ i, i < A.n → D i * wd.get i = 1) (sqrt fabs : R → ℝ)
    {omp : Option (OmpRun R)} {ompS : Option (OmpRun ℝ)}
    (ho : GoodRun A.n omp) (hoS : GoodRun A.n ompS) (o : Opts R ℝ) (junk : ℝ) {h : Vecs R} (hg : h.Good A.n)
    {hist : Arr ℝ} (hsz : o.maxiter < hist.size) :
    Ok ((lisGs junk o).exec (stationaryKit A wd sqrt fabs omp ompS) ⟨h, hist⟩)
      fun r => StationaryArray A.n A.entry A.L.entry D sqrt o junk (h.el hB) (h.el hX) (r.2.h.el hX) r.1 := by
  obtain ⟨m, hm, hmaps⟩ := solveLower_maps hA hs hw hwd
  have himp := arrayKit_implements (isMatvec_split hA hnp) (isMatvech_split hA hnp) (psolveNone_maps A.n)
    (psolveNone_maps A.n) hmaps
    (rdiagOn_maps (dd := fun i => A.entry i i) fun d hd => (getDiagonalSplitCsr_spec hA hs d hd).mono fun d' h => ⟨h.1, h.2.1⟩)
    sqrt fabs ho hoS
  have hspec := lisGs_spec (mathKit A.entry sqrt fabs id id m fun i : Fin A.n => 1 / A.entry i i) o junk
    ⟨h.vecs A.n, hist⟩ hsz
  refine (Prog.exec_refines himp (lisGs junk o) (Q := fun out s' => StationaryRun _ m o junk ⟨h.vecs A.n, hist⟩ s' out)
    hg hspec).mono ?_
  rintro r ⟨-, h2⟩
  exact h2.array hm

/-- **C26 (Gauss-Seidel)**: `M = D + L` -/
theorem csr_gs {A : SplitCsr R} (hA : A.WF) (hs : A.Strict) (hnp : A.np = A.n) (h0 : ∀ i, i < A.n → A.D.get i ≠ 0)
    {wj : Arr R} (hj : A.n ≤ wj.size) (sqrt fabs : R → ℝ) {omp : Option (OmpRun R)} {ompS : Option (OmpRun ℝ)}
    (ho : GoodRun A.n omp) (hoS : GoodRun A.n ompS) (o : Opts R ℝ) (junk : ℝ) {h : Vecs R} (hg : h.Good A.n)
    {hist : Arr ℝ} (hsz : o.maxiter < hist.size) :
    Ok (do
      let wd ← makeWdGs A.n A.D wj
      (lisGs junk o).exec (stationaryKit A wd sqrt fabs omp ompS) ⟨h, hist⟩)
      fun r => StationaryArray A.n A.entry A.L.entry A.D.get sqrt o junk (h.el hB) (h.el hX) (r.2.h.el hX) r.1 := by
  rw [Ok_bind]
  have := hA.dsz
  refine (makeWdGs_spec (by omega) hj).mono ?_
  rintro wd ⟨s, g⟩
  exact lower_stationary hA hs hnp (by omega) (fun i hi => by rw [g i hi, mul_one_div_cancel (h0 i hi)]) sqrt fabs ho hoS
    o junk hg hsz

/-- **C26 (SOR)**: `M = D/omega + L` -/
theorem csr_sor {A : SplitCsr R} (hA : A.WF) (hs : A.Strict) (hnp : A.np = A.n) (h0 : ∀ i, i < A.n → A.D.get i ≠ 0)
    {omega : R} (hom : omega ≠ 0) {wj : Arr R} (hj : A.n ≤ wj.size) (sqrt fabs : R → ℝ)
    {omp : Option (OmpRun R)} {ompS : Option (OmpRun ℝ)}
    (ho : GoodRun A.n omp) (hoS : GoodRun A.n ompS) (o : Opts R ℝ) (junk : ℝ) {h : Vecs R} (hg : h.Good A.n)
    {hist : Arr ℝ} (hsz : o.maxiter < hist.size) :
    Ok (do
      let wd ← makeWd (1 / omega) A.n A.D wj
      (lisSor junk o).exec (stationaryKit A wd sqrt fabs omp ompS) ⟨h, hist⟩)
      fun r => StationaryArray A.n A.entry A.L.entry (fun i => A.D.get i / omega) sqrt o junk (h.el hB) (h.el hX)
        (r.2.h.el hX) r.1 := by
  rw [Ok_bind]
  have := hA.dsz
  refine (makeWd_spec _ (by omega) hj).mono ?_
  rintro wd ⟨s, g⟩
  refine lower_stationary hA hs hnp (by omega) (fun i hi => ?_) sqrt fabs ho hoS o junk hg hsz
  rw [g i hi]
  have := h0 i hi
  field_simp

/-- **C26 (Jacobi)**: `M = D` -/
theorem csr_jacobi {A : Csr R} (hA : A.WF) (hnp : A.np = A.n) (hd : ∀ i, i < A.n → A.StoresDiag i → A.DiagOnce i)
    (h0 : ∀ i, i < A.n → A.entry i i ≠ 0)
    (sqrt fabs : R → ℝ) {omp : Option (OmpRun R)} {ompS : Option (OmpRun ℝ)}
    (ho : GoodRun A.n omp) (hoS : GoodRun A.n ompS) (o : Opts R ℝ) (junk : ℝ) {h : Vecs R} (hg : h.Good A.n)
    {hist : Arr ℝ} (hsz : o.maxiter < hist.size) :
    Ok ((lisJacobi junk o).exec (arrayKit (matvecCsr A) (matvechCsr A) psolveNone psolveNone psolveNone
        (rdiagOn (getDiagonalCsr A)) sqrt fabs omp ompS) ⟨h, hist⟩)
      fun r => StationaryArray A.n A.entry (fun _ _ => 0) (fun i => A.entry i i) sqrt o junk (h.el hB) (h.el hX)
        (r.2.h.el hX) r.1 := by
  have himp := arrayKit_implements (isMatvec_csr hA hnp) (isMatvech_csr hA hnp) (psolveNone_maps A.n)
    (psolveNone_maps A.n) (psolveNone_maps A.n)
    (rdiagOn_maps (dd := fun i => A.entry i i) fun d hdz => (getDiagonalCsr_spec hA hd d hdz).mono fun d' h => ⟨h.1, h.2.1⟩)
    sqrt fabs ho hoS
  have hspec := lisJacobi_spec (mathKit A.entry sqrt fabs id id id fun i : Fin A.n => 1 / A.entry i i) o junk
    ⟨h.vecs A.n, hist⟩ hsz
  refine (Prog.exec_refines himp (lisJacobi junk o)
    (Q := fun out s' => StationaryRun _ (fun r i => r i * (1 / A.entry i i)) o junk ⟨h.vecs A.n, hist⟩ s' out)
    hg hspec).mono ?_
  rintro r ⟨-, h2⟩
  refine h2.array (D := fun i => A.entry i i) fun r i => ?_
  have := h0 i i.2
  simp only [matMul, zero_mul, Finset.sum_const_zero, add_zero]
  field_simp

end Lis
