import Verif.Props.Converge

/-!
# C45 on arrays: Jacobi, Gauss-Seidel and SOR on CSR matrices
-/

namespace Lis
open Finset

theorem StrictDom.factor {n : ℕ} {a : ℕ → ℕ → ℝ} (h : StrictDom n a) :
    ∃ q, 0 ≤ q ∧ q < 1 ∧ ∀ i, i < n → offDiag n a i ≤ q * |a i i| :=
  exists_factor (fun i _ => sum_nonneg fun _ _ => abs_nonneg _) h

theorem StrictDom.diag {n : ℕ} {a : ℕ → ℕ → ℝ} (h : StrictDom n a) (i : ℕ) (hi : i < n) : a i i ≠ 0 := by
  have : 0 < |a i i| := lt_of_le_of_lt (sum_nonneg fun _ _ => abs_nonneg _) (h i hi)
  exact abs_pos.1 this

/-- **C45 (Jacobi).** On a strictly diagonally dominant matrix, for every right-hand side that is not zero, every initial
guess and every positive tolerance there is a number `N` such that every run with `maxiter ≥ N` succeeds within `N`
iterations; every run, whether it succeeds or not, multiplies the error by at most `q` per iteration; see
`DomGuarantee`. -/
theorem csr_jacobi_dom {A : Csr ℝ} (hA : A.WF) (hnp : A.np = A.n)
    (hd : ∀ i, i < A.n → A.StoresDiag i → A.DiagOnce i) (hdom : StrictDom A.n A.entry) {q : ℝ} (hq0 : 0 ≤ q) (hq1 : q < 1)
    (hq : ∀ i, i < A.n → offDiag A.n A.entry i ≤ q * |A.entry i i|)
    {omp ompS : Option (OmpRun ℝ)} (ho : GoodRun A.n omp) (hoS : GoodRun A.n ompS)
    {h : Vecs ℝ} (hg : h.Good A.n) (hb : ∃ i, i < A.n ∧ h.el hB i ≠ 0) {tol : ℝ} (htol : 0 < tol) :
    ∃ N, ∀ (o : Opts ℝ ℝ) (junk : ℝ) (hist : Arr ℝ), o.tol = tol → o.maxiter < hist.size →
      Ok ((lisJacobi junk o).exec (arrayKit (matvecCsr A) (matvechCsr A) psolveNone psolveNone psolveNone
          (rdiagOn (getDiagonalCsr A)) Real.sqrt abs omp ompS) ⟨h, hist⟩)
        fun r => DomGuarantee A.n A.entry (h.el hB) (h.el hX) (r.2.h.el hX) q N o r.1 := by
  obtain ⟨xs, hxs⟩ := hdom.solvable (h.el hB)
  have h0 := hdom.diag
  obtain ⟨N, hN⟩ := StationaryArray.dom (t := fun _ _ => 0) (D := fun i => A.entry i i) (fun i j _ h => absurd rfl h) h0
    hq0 hq1 (fun i hi => by
      rw [rest_sum (a := A.entry) h0 one_pos le_rfl (fun i _ => (div_one _).symm) (fun _ _ _ _ => Or.inl rfl)
        (fun i j _ h => absurd rfl h) hi, sub_self, add_zero]
      exact hq i hi) hxs hb htol (h.el hX)
  exact ⟨N, fun o junk hist eo hsz =>
    (csr_jacobi hA hnp hd h0 Real.sqrt abs ho hoS o junk hg hsz).mono fun r hr => hN o junk _ _ eo hr⟩

theorem SplitCsr.diag_eq {A : SplitCsr ℝ} (hs : A.Strict) {i : ℕ} (hi : i < A.n) : A.entry i i = A.D.get i := by
  unfold SplitCsr.entry
  rw [SplitCsr.low_zero hs i i hi le_rfl, SplitCsr.up_zero hs i i hi le_rfl, if_pos rfl]
  ring

theorem SplitCsr.low_eq {A : SplitCsr ℝ} (hs : A.Strict) {i j : ℕ} (hi : i < A.n) :
    A.L.entry i j = if j < i then A.entry i j else 0 := by
  split
  · rename_i h
    unfold SplitCsr.entry
    rw [SplitCsr.up_zero hs i j hi h.le, if_neg (by omega)]
    ring
  · rename_i h
    exact SplitCsr.low_zero hs i j hi (by omega)

/-- **C45 (SOR with `0 < omega ≤ 1`).** The factor per iteration is `1 - omega (1 - q)`. -/
theorem csr_sor_dom {A : SplitCsr ℝ} (hA : A.WF) (hs : A.Strict) (hnp : A.np = A.n) (hdom : StrictDom A.n A.entry)
    {q : ℝ} (hq0 : 0 ≤ q) (hq1 : q < 1) (hq : ∀ i, i < A.n → offDiag A.n A.entry i ≤ q * |A.entry i i|)
    {omega : ℝ} (ho0 : 0 < omega) (ho1 : omega ≤ 1)
    {omp ompS : Option (OmpRun ℝ)} (ho : GoodRun A.n omp) (hoS : GoodRun A.n ompS)
    {h : Vecs ℝ} (hg : h.Good A.n) (hb : ∃ i, i < A.n ∧ h.el hB i ≠ 0) {tol : ℝ} (htol : 0 < tol) :
    ∃ N, ∀ (o : Opts ℝ ℝ) (junk : ℝ) (hist wj : Arr ℝ), o.tol = tol → o.maxiter < hist.size → A.n ≤ wj.size →
      Ok (do
        let wd ← makeWd (1 / omega) A.n A.D wj
        (lisSor junk o).exec (stationaryKit A wd Real.sqrt abs omp ompS) ⟨h, hist⟩)
        fun r => DomGuarantee A.n A.entry (h.el hB) (h.el hX) (r.2.h.el hX) (1 - omega * (1 - q)) N o r.1 := by
  obtain ⟨xs, hxs⟩ := hdom.solvable (h.el hB)
  have h0 : ∀ i, i < A.n → A.D.get i ≠ 0 := fun i hi => SplitCsr.diag_eq hs hi ▸ hdom.diag i hi
  have hD : ∀ i, i < A.n → A.D.get i / omega ≠ 0 := fun i hi => div_ne_zero (h0 i hi) ho0.ne'
  have ht : ∀ i j, i < A.n → A.L.entry i j ≠ 0 → j < i := by
    intro i j hi h
    by_contra hc
    exact h (SplitCsr.low_zero hs i j hi (by omega))
  obtain ⟨N, hN⟩ := StationaryArray.dom (a := A.entry) (t := A.L.entry) (D := fun i => A.D.get i / omega) ht hD
    (q := 1 - omega * (1 - q)) (by nlinarith) (by nlinarith) (fun i hi => by
      rw [rest_sum (a := A.entry) hD ho0 ho1 (fun i hi => by rw [SplitCsr.diag_eq hs hi])
        (fun i j hi hj => by rw [SplitCsr.low_eq hs hi]; split; exacts [Or.inr rfl, Or.inl rfl]) ht hi]
      have h1 := hq i hi
      have h2 : |A.D.get i / omega| * omega = |A.entry i i| := by
        rw [SplitCsr.diag_eq hs hi, abs_div, abs_of_pos ho0]; field_simp
      nlinarith) hxs hb htol (h.el hX)
  exact ⟨N, fun o junk hist wj eo hsz hw =>
    (csr_sor hA hs hnp h0 ho0.ne' hw Real.sqrt abs ho hoS o junk hg hsz).mono fun r hr => hN o junk _ _ eo hr⟩

/-- **C45 (Gauss-Seidel).** -/
theorem csr_gs_dom {A : SplitCsr ℝ} (hA : A.WF) (hs : A.Strict) (hnp : A.np = A.n) (hdom : StrictDom A.n A.entry)
    {q : ℝ} (hq0 : 0 ≤ q) (hq1 : q < 1) (hq : ∀ i, i < A.n → offDiag A.n A.entry i ≤ q * |A.entry i i|)
    {omp ompS : Option (OmpRun ℝ)} (ho : GoodRun A.n omp) (hoS : GoodRun A.n ompS)
    {h : Vecs ℝ} (hg : h.Good A.n) (hb : ∃ i, i < A.n ∧ h.el hB i ≠ 0) {tol : ℝ} (htol : 0 < tol) :
    ∃ N, ∀ (o : Opts ℝ ℝ) (junk : ℝ) (hist wj : Arr ℝ), o.tol = tol → o.maxiter < hist.size → A.n ≤ wj.size →
      Ok (do
        let wd ← makeWdGs A.n A.D wj
        (lisGs junk o).exec (stationaryKit A wd Real.sqrt abs omp ompS) ⟨h, hist⟩)
        fun r => DomGuarantee A.n A.entry (h.el hB) (h.el hX) (r.2.h.el hX) q N o r.1 := by
  obtain ⟨xs, hxs⟩ := hdom.solvable (h.el hB)
  have h0 : ∀ i, i < A.n → A.D.get i ≠ 0 := fun i hi => SplitCsr.diag_eq hs hi ▸ hdom.diag i hi
  have ht : ∀ i j, i < A.n → A.L.entry i j ≠ 0 → j < i := by
    intro i j hi h
    by_contra hc
    exact h (SplitCsr.low_zero hs i j hi (by omega))
  obtain ⟨N, hN⟩ := StationaryArray.dom (a := A.entry) (t := A.L.entry) (D := A.D.get) ht h0
    hq0 hq1 (fun i hi => by
      rw [rest_sum (a := A.entry) h0 one_pos le_rfl (fun i hi => by rw [SplitCsr.diag_eq hs hi, div_one])
        (fun i j hi hj => by rw [SplitCsr.low_eq hs hi]; split; exacts [Or.inr rfl, Or.inl rfl]) ht hi,
        SplitCsr.diag_eq hs hi, sub_self, add_zero, ← SplitCsr.diag_eq hs hi]
      exact hq i hi) hxs hb htol (h.el hX)
  exact ⟨N, fun o junk hist wj eo hsz hw =>
    (csr_gs hA hs hnp h0 hw Real.sqrt abs ho hoS o junk hg hsz).mono fun r hr => hN o junk _ _ eo hr⟩

/-- **C45 (SOR on a symmetric positive definite matrix, `0 < omega < 2`)**: it converges from every initial guess, and
the error in the energy norm never grows. -/
theorem csr_sor_spd {A : SplitCsr ℝ} (hA : A.WF) (hs : A.Strict) (hnp : A.np = A.n) (hS : Spd (toMat A.n A.entry))
    {omega : ℝ} (ho0 : 0 < omega) (ho2 : omega < 2)
    {omp ompS : Option (OmpRun ℝ)} (ho : GoodRun A.n omp) (hoS : GoodRun A.n ompS)
    {h : Vecs ℝ} (hg : h.Good A.n) (hb : ∃ i, i < A.n ∧ h.el hB i ≠ 0) {tol : ℝ} (htol : 0 < tol) :
    ∃ N, ∀ (o : Opts ℝ ℝ) (junk : ℝ) (hist wj : Arr ℝ), o.tol = tol → o.maxiter < hist.size → A.n ≤ wj.size →
      Ok (do
        let wd ← makeWd (1 / omega) A.n A.D wj
        (lisSor junk o).exec (stationaryKit A wd Real.sqrt abs omp ompS) ⟨h, hist⟩)
        fun r => EnergyGuarantee A.n A.entry (h.el hB) (h.el hX) (r.2.h.el hX) N o r.1 := by
  have h0 : ∀ i, i < A.n → A.D.get i ≠ 0 := fun i hi => SplitCsr.diag_eq hs hi ▸ (hS.diag ⟨i, hi⟩).ne'
  obtain ⟨N, hN⟩ := StationaryArray.spd (t := A.L.entry) (D := fun i => A.D.get i / omega) hS
    (fun i j hi _ => SplitCsr.low_eq hs hi) ho0 ho2 (fun i hi => by rw [SplitCsr.diag_eq hs hi]) hb htol (h.el hX)
  exact ⟨N, fun o junk hist wj eo hsz hw =>
    (csr_sor hA hs hnp h0 ho0.ne' hw Real.sqrt abs ho hoS o junk hg hsz).mono fun r hr => hN o junk _ _ eo hr⟩

/-- **C45 (Gauss-Seidel on a symmetric positive definite matrix).** -/
theorem csr_gs_spd {A : SplitCsr ℝ} (hA : A.WF) (hs : A.Strict) (hnp : A.np = A.n) (hS : Spd (toMat A.n A.entry))
    {omp ompS : Option (OmpRun ℝ)} (ho : GoodRun A.n omp) (hoS : GoodRun A.n ompS)
    {h : Vecs ℝ} (hg : h.Good A.n) (hb : ∃ i, i < A.n ∧ h.el hB i ≠ 0) {tol : ℝ} (htol : 0 < tol) :
    ∃ N, ∀ (o : Opts ℝ ℝ) (junk : ℝ) (hist wj : Arr ℝ), o.tol = tol → o.maxiter < hist.size → A.n ≤ wj.size →
      Ok (do
        let wd ← makeWdGs A.n A.D wj
        (lisGs junk o).exec (stationaryKit A wd Real.sqrt abs omp ompS) ⟨h, hist⟩)
        fun r => EnergyGuarantee A.n A.entry (h.el hB) (h.el hX) (r.2.h.el hX) N o r.1 := by
  have h0 : ∀ i, i < A.n → A.D.get i ≠ 0 := fun i hi => SplitCsr.diag_eq hs hi ▸ (hS.diag ⟨i, hi⟩).ne'
  obtain ⟨N, hN⟩ := StationaryArray.spd (t := A.L.entry) (D := A.D.get) hS
    (fun i j hi _ => SplitCsr.low_eq hs hi) one_pos one_lt_two (fun i hi => by rw [SplitCsr.diag_eq hs hi, div_one]) hb
    htol (h.el hX)
  exact ⟨N, fun o junk hist wj eo hsz hw =>
    (csr_gs hA hs hnp h0 hw Real.sqrt abs ho hoS o junk hg hsz).mono fun r hr => hN o junk _ _ eo hr⟩

end Lis
