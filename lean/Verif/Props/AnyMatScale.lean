import Verif.Props.AnyShift

/-!
# C13: scaling a system, in every storage format
-/

namespace Lis
open Finset
variable {R : Type}

/-- **C13 (kernels).** `lis_matrix_scale_*` multiplies row `i` by `d_i` — in every format but BSC (see
`scaleBsc_effect`).  MSR writes 1 on the diagonal, which is right when `d_i` is the reciprocal. -/
theorem AnyMat.scaleBy_spec [CommRing R] {A : AnyMat R} (h : A.WF) (hd : A.Distinct) (hp : A.Packed)
    (hb : A.fmt ≠ .bsc) (d : Arr R) (hs : A.dSize ≤ d.size)
    (hu : A.UnitDiag → ∀ i, i < A.n → A.entry i i * d.get i = 1) :
    Ok (A.scaleBy d) fun B => B.WF ∧ B.n = A.n ∧ B.fmt = A.fmt ∧ ∀ i j, i < A.n → j < A.n →
      B.entry i j = A.entry i j * d.get i := by
  cases A with
  | csr A =>
    show Ok ((scaleCsr A d).bind _) _
    rw [Ok_obind]
    refine (scaleCsr_spec h.1 d hs).mono ?_
    rintro B ⟨h1, h2, h3, h4⟩
    rw [Ok_pure]
    exact ⟨⟨h1, by rw [h2, h3]; exact h.2⟩, h2, rfl, fun i j hi _ => h4 i j hi⟩
  | csc A =>
    show Ok ((scaleCsc A d).bind _) _
    rw [Ok_obind]
    refine (scaleCsc_spec h.1 d hs).mono ?_
    rintro B ⟨h1, h2, h3, h4⟩
    rw [Ok_pure]
    exact ⟨⟨h1, by rw [h2, h3]; exact h.2⟩, h2, rfl, fun i j _ hj => h4 i j (by rw [h.2]; exact hj)⟩
  | msr z A =>
    show Ok ((scaleMsr A d).bind _) _
    rw [Ok_obind]
    refine (scaleMsr_spec h.1 d hs).mono ?_
    rintro B ⟨h1, h2, h3, h4⟩
    rw [Ok_pure]
    refine ⟨⟨h1, by rw [h2, h3]; exact h.2⟩, h2, rfl, fun i j hi _ => ?_⟩
    have h5 := h4 i j hi
    show B.entry i j = A.entry i j * d.get i
    by_cases hij : i = j
    · subst hij
      have h6 := (Msr.diagStore h.1 hd).stored A.value (AgreeOff.refl _ _) i i ⟨hi, rfl⟩
      have h7 : A.entry i i * d.get i = 1 := hu trivial i hi
      have h8 : A.value.get i * d.get i = 1 := by rw [← h7]; exact congrArg (· * d.get i) h6.symm
      rw [if_pos rfl, if_pos rfl, h8] at h5
      exact add_right_cancel h5
    · rw [if_neg hij, if_neg hij, add_zero, add_zero] at h5
      exact h5
  | dia A =>
    show Ok ((scaleDia A d).bind _) _
    rw [Ok_obind]
    refine (scaleDia_spec h d hs).mono ?_
    rintro B ⟨h1, h2, h4⟩
    rw [Ok_pure]
    exact ⟨h1, h2, rfl, fun i j hi hj => h4 i j hi hj⟩
  | ell A =>
    show Ok ((scaleEll A d).bind _) _
    rw [Ok_obind]
    refine (scaleEll_spec h d hs).mono ?_
    rintro B ⟨h1, h2, h4⟩
    rw [Ok_pure]
    exact ⟨h1, h2, rfl, fun i j hi _ => h4 i j hi⟩
  | jad A =>
    show Ok ((scaleJad A d).bind _) _
    rw [Ok_obind]
    refine (scaleJad_spec h.1 d hs).mono ?_
    rintro B ⟨h1, h2, h3, h4⟩
    rw [Ok_pure]
    exact ⟨⟨h1, by rw [h2, h3]; exact h.2⟩, h2, rfl, fun i j _ _ => h4 i j⟩
  | bsr A =>
    show Ok ((scaleBsr A d).bind _) _
    rw [Ok_obind]
    have hs' : max A.n (max (A.nr * A.bnr) (A.nc * A.bnc)) ≤ d.size := hs
    refine (scaleBsr_spec h.1 h.2 d (by omega)).mono ?_
    rintro B ⟨h1, h2, h3, h4⟩
    rw [Ok_pure]
    exact ⟨⟨h1, h2⟩, h3, rfl, fun i j hi _ => h4 i j hi⟩
  | bsc A => exact absurd rfl hb
  | vbr A =>
    show Ok ((scaleVbr A d).bind _) _
    rw [Ok_obind]
    refine (scaleVbr_spec h hp d hs).mono ?_
    rintro B ⟨h1, h2, h4⟩
    rw [Ok_pure]
    exact ⟨h1, h2, rfl, fun i j _ _ => h4 i j⟩
  | dns A =>
    show Ok ((scaleDns A d).bind _) _
    rw [Ok_obind]
    refine (scaleDns_spec h.1 d hs).mono ?_
    rintro B ⟨h1, h2, h3, h4⟩
    rw [Ok_pure]
    exact ⟨⟨h1, by rw [h2, h3]; exact h.2⟩, h2, rfl, fun i j hi hj => h4 i j hi (by rw [h.2]; exact hj)⟩
  | coo A =>
    show Ok ((scaleCoo A d).bind _) _
    rw [Ok_obind]
    refine (scaleCoo_spec h d hs).mono ?_
    rintro B ⟨h1, h2, h4⟩
    rw [Ok_pure]
    exact ⟨h1, h2, rfl, fun i j _ _ => h4 i j⟩

/-- **C13 (kernels).** `lis_matrix_scale_symm_*` computes `diag(d) A diag(d)` — in every format but BSC and COO (see
`scaleSymmBsc_effect`, `scaleSymmCoo_squares`). -/
theorem AnyMat.scaleSymmBy_spec [CommRing R] {A : AnyMat R} (h : A.WF) (hd : A.Distinct) (hp : A.Packed)
    (hb : A.fmt ≠ .bsc) (hc : A.fmt ≠ .coo) (d : Arr R) (hs : A.dSize ≤ d.size)
    (hu : A.UnitDiag → ∀ i, i < A.n → A.entry i i * d.get i * d.get i = 1) :
    Ok (A.scaleSymmBy d) fun B => B.WF ∧ B.n = A.n ∧ B.fmt = A.fmt ∧ ∀ i j, i < A.n → j < A.n →
      B.entry i j = A.entry i j * d.get i * d.get j := by
  cases A with
  | csr A =>
    have hs' : A.n ≤ d.size := hs
    show Ok ((scaleSymmCsr A d).bind _) _
    rw [Ok_obind]
    refine (scaleSymmCsr_spec h.1 d hs (by rw [h.2]; exact hs)).mono ?_
    rintro B ⟨h1, h2, h3, h4⟩
    rw [Ok_pure]
    exact ⟨⟨h1, by rw [h2, h3]; exact h.2⟩, h2, rfl, fun i j hi _ => h4 i j hi⟩
  | csc A =>
    show Ok ((scaleSymmCsc A d).bind _) _
    rw [Ok_obind]
    refine (scaleSymmCsc_spec h.1 d hs (by rw [h.2]; exact hs)).mono ?_
    rintro B ⟨h1, h2, h3, h4⟩
    rw [Ok_pure]
    exact ⟨⟨h1, by rw [h2, h3]; exact h.2⟩, h2, rfl, fun i j _ hj => h4 i j (by rw [h.2]; exact hj)⟩
  | msr z A =>
    show Ok ((scaleSymmMsr A d).bind _) _
    rw [Ok_obind]
    refine (scaleSymmMsr_spec h.1 d hs).mono ?_
    rintro B ⟨h1, h2, h3, h4⟩
    rw [Ok_pure]
    refine ⟨⟨h1, by rw [h2, h3]; exact h.2⟩, h2, rfl, fun i j hi _ => ?_⟩
    have h5 := h4 i j hi
    show B.entry i j = A.entry i j * d.get i * d.get j
    by_cases hij : i = j
    · subst hij
      have h6 := (Msr.diagStore h.1 hd).stored A.value (AgreeOff.refl _ _) i i ⟨hi, rfl⟩
      have h7 : A.entry i i * d.get i * d.get i = 1 := hu trivial i hi
      have h8 : A.value.get i * d.get i * d.get i = 1 := by
        rw [← h7]; exact congrArg (· * d.get i * d.get i) h6.symm
      rw [if_pos rfl, if_pos rfl, h8] at h5
      exact add_right_cancel h5
    · rw [if_neg hij, if_neg hij, add_zero, add_zero] at h5
      exact h5
  | dia A =>
    show Ok ((scaleSymmDia A d).bind _) _
    rw [Ok_obind]
    refine (scaleSymmDia_spec h d hs).mono ?_
    rintro B ⟨h1, h2, h4⟩
    rw [Ok_pure]
    exact ⟨h1, h2, rfl, fun i j hi hj => h4 i j hi hj⟩
  | ell A =>
    show Ok ((scaleSymmEll A d).bind _) _
    rw [Ok_obind]
    refine (scaleSymmEll_spec h d hs).mono ?_
    rintro B ⟨h1, h2, h4⟩
    rw [Ok_pure]
    exact ⟨h1, h2, rfl, fun i j hi _ => h4 i j hi⟩
  | jad A =>
    show Ok ((scaleSymmJad A d).bind _) _
    rw [Ok_obind]
    refine (scaleSymmJad_spec h.1 d hs (by rw [h.2]; exact hs)).mono ?_
    rintro B ⟨h1, h2, h3, h4⟩
    rw [Ok_pure]
    exact ⟨⟨h1, by rw [h2, h3]; exact h.2⟩, h2, rfl, fun i j _ _ => h4 i j⟩
  | bsr A =>
    show Ok ((scaleSymmBsr A d).bind _) _
    rw [Ok_obind]
    have hs' : max A.n (max (A.nr * A.bnr) (A.nc * A.bnc)) ≤ d.size := hs
    refine (scaleSymmBsr_spec h.1 h.2 d (by omega) (by omega)).mono ?_
    rintro B ⟨h1, h2, h3, h4⟩
    rw [Ok_pure]
    exact ⟨⟨h1, h2⟩, h3, rfl, fun i j hi _ => h4 i j hi⟩
  | bsc A => exact absurd rfl hb
  | vbr A =>
    show Ok ((scaleSymmVbr A d).bind _) _
    rw [Ok_obind]
    refine (scaleSymmVbr_spec h hp d hs).mono ?_
    rintro B ⟨h1, h2, h4⟩
    rw [Ok_pure]
    exact ⟨h1, h2, rfl, fun i j _ _ => h4 i j⟩
  | dns A =>
    show Ok ((scaleSymmDns A d).bind _) _
    rw [Ok_obind]
    refine (scaleSymmDns_spec h.1 d hs (by rw [h.2]; exact hs)).mono ?_
    rintro B ⟨h1, h2, h3, h4⟩
    rw [Ok_pure]
    exact ⟨⟨h1, by rw [h2, h3]; exact h.2⟩, h2, rfl, fun i j hi hj => h4 i j hi (by rw [h.2]; exact hj)⟩
  | coo A => exact absurd rfl hc

theorem AnyMat.n_le_dSize (A : AnyMat R) : A.n ≤ A.dSize := by
  cases A <;> first | exact le_rfl | exact le_max_left _ _

/-- the diagonal vector of a matrix with nonzero diagonal -/
theorem AnyMat.getDiagonal_nonzero [AddCommMonoid R] {A : AnyMat R} (h : A.WF) (hd : A.Distinct) (hr : A.DiagReachable)
    (d : Arr R) (hs : A.n ≤ d.size) (hnz : ∀ i, i < A.n → A.entry i i ≠ 0) :
    Ok (A.getDiagonal d) fun d' => d'.size = d.size ∧ ∀ i, i < A.n → d'.get i = A.entry i i := by
  refine (AnyMat.getDiagonal_spec h hd hr d hs).mono ?_
  rintro d' ⟨h1, h2, h3, -⟩
  refine ⟨h1, fun i hi => ?_⟩
  by_cases hst : A.StoresDiag i
  · exact h2 i hi hst
  · exact absurd (h3 i hi hst).1 (hnz i hi)

/-- **C13 (Jacobi scaling, all formats but BSC).** The scaled system `A' x = b'` has the same solutions as `A x = b`, and
`A'` has unit diagonal. -/
theorem AnyMat.scaleJacobi_spec [Field R] {A : AnyMat R} (h : A.WF) (hd : A.Distinct) (hr : A.DiagReachable)
    (hp : A.Packed) (hbsc : A.fmt ≠ .bsc) (b d : Arr R) (hb : A.n ≤ b.size) (hs : A.dSize ≤ d.size)
    (hnz : ∀ i, i < A.n → A.entry i i ≠ 0) :
    Ok (A.scaleJacobi (·⁻¹) b d) fun r => r.1.WF ∧ r.1.n = A.n ∧ r.1.fmt = A.fmt ∧
      (∀ i j, i < A.n → j < A.n → r.1.entry i j = A.entry i j / A.entry i i) ∧
      (∀ i, i < A.n → r.2.1.get i = b.get i / A.entry i i) ∧
      ∀ x, IsMul A.n A.n r.1.entry x r.2.1.get ↔ IsMul A.n A.n A.entry x b.get := by
  have hns := A.n_le_dSize
  unfold AnyMat.scaleJacobi
  rw [Ok_bind]
  refine (AnyMat.getDiagonal_nonzero h hd hr d (by omega) hnz).mono ?_
  rintro d1 ⟨a1, a2⟩
  rw [Ok_bind]
  refine Ok_mapLoop (by omega) _ fun d2 b1 b2 => ?_
  rw [Ok_bind]
  refine (AnyMat.scaleBy_spec h hd hp hbsc d2 (by omega) fun _ i hi => by
    rw [b2 i hi, a2 i hi, mul_inv_cancel₀ (hnz i hi)]).mono ?_
  rintro A' ⟨c1, c2, c3, c4⟩
  rw [Ok_bind]
  refine Ok_rhsLoop hb (by omega) fun b' e1 e2 => ?_
  rw [Ok_pure]
  have hA : ∀ i j, i < A.n → j < A.n → A'.entry i j = A.entry i j / A.entry i i := fun i j hi hj => by
    rw [c4 i j hi hj, b2 i hi, a2 i hi, div_eq_mul_inv]
  have hb' : ∀ i, i < A.n → b'.get i = b.get i / A.entry i i := fun i hi => by
    rw [e2 i hi, b2 i hi, a2 i hi, div_eq_mul_inv]
  refine ⟨c1, c2, c3, hA, hb', fun x => ?_⟩
  unfold IsMul
  refine forall_congr' fun i => forall_congr' fun hi => ?_
  have : ∑ j ∈ range A.n, A'.entry i j * x j = (∑ j ∈ range A.n, A.entry i j * x j) / A.entry i i := by
    rw [sum_div]
    refine sum_congr rfl fun j hj => ?_
    rw [hA i j hi (mem_range.1 hj)]; ring
  simp only [this, hb' i hi]
  exact div_left_inj' (hnz i hi)

/-- **C13 (symmetric scaling, all formats but BSC and COO).** With `d_i = rsq(A(i,i))` (in C `1/sqrt(fabs(·))`), `y` solves
the scaled system iff `x = diag(d) y` solves the original one.  MSR, which writes 1 on the diagonal, needs
`A(i,i) d_i² = 1`, that is a positive diagonal. -/
theorem AnyMat.scaleSymm_spec [Field R] (rsq : R → R) (hrs : ∀ v, v ≠ 0 → rsq v ≠ 0) {A : AnyMat R} (h : A.WF)
    (hd : A.Distinct) (hr : A.DiagReachable) (hp : A.Packed) (hbsc : A.fmt ≠ .bsc) (hcoo : A.fmt ≠ .coo)
    (b d : Arr R) (hb : A.n ≤ b.size) (hs : A.dSize ≤ d.size) (hnz : ∀ i, i < A.n → A.entry i i ≠ 0)
    (hmsr : A.UnitDiag → ∀ i, i < A.n → A.entry i i * rsq (A.entry i i) * rsq (A.entry i i) = 1) :
    Ok (A.scaleSymm rsq b d) fun r => r.1.WF ∧ r.1.n = A.n ∧ r.1.fmt = A.fmt ∧
      (∀ i, i < A.n → r.2.2.get i = rsq (A.entry i i)) ∧
      (∀ i j, i < A.n → j < A.n → r.1.entry i j = A.entry i j * r.2.2.get i * r.2.2.get j) ∧
      (∀ i, i < A.n → r.2.1.get i = b.get i * r.2.2.get i) ∧
      ∀ y, IsMul A.n A.n r.1.entry y r.2.1.get ↔ IsMul A.n A.n A.entry (fun j => r.2.2.get j * y j) b.get := by
  have hns := A.n_le_dSize
  unfold AnyMat.scaleSymm
  rw [Ok_bind]
  refine (AnyMat.getDiagonal_nonzero h hd hr d (by omega) hnz).mono ?_
  rintro d1 ⟨a1, a2⟩
  rw [Ok_bind]
  refine Ok_mapLoop (by omega) _ fun d2 b1 b2 => ?_
  rw [Ok_bind]
  refine (AnyMat.scaleSymmBy_spec h hd hp hbsc hcoo d2 (by omega) fun hu i hi => by
    rw [b2 i hi, a2 i hi]; exact hmsr hu i hi).mono ?_
  rintro A' ⟨c1, c2, c3, c4⟩
  rw [Ok_bind]
  refine Ok_rhsLoop hb (by omega) fun b' e1 e2 => ?_
  rw [Ok_pure]
  have hd2 : ∀ i, i < A.n → d2.get i = rsq (A.entry i i) := fun i hi => by rw [b2 i (by omega), a2 i hi]
  refine ⟨c1, c2, c3, hd2, c4, e2, fun y => ?_⟩
  unfold IsMul
  refine forall_congr' fun i => forall_congr' fun hi => ?_
  have : ∑ j ∈ range A.n, A'.entry i j * y j = (∑ j ∈ range A.n, A.entry i j * (d2.get j * y j)) * d2.get i := by
    rw [sum_mul]
    refine sum_congr rfl fun j hj => ?_
    rw [c4 i j hi (mem_range.1 hj)]; ring
  simp only [this, e2 i hi]
  exact mul_left_inj' (by rw [hd2 i hi]; exact hrs _ (hnz i hi))

/-- the same over the reals with the expression of the C code; MSR with a positive diagonal -/
theorem AnyMat.scaleSymm_real {A : AnyMat ℝ} (h : A.WF)
    (hd : A.Distinct) (hr : A.DiagReachable) (hp : A.Packed) (hbsc : A.fmt ≠ .bsc) (hcoo : A.fmt ≠ .coo)
    (b d : Arr ℝ) (hb : A.n ≤ b.size) (hs : A.dSize ≤ d.size) (hnz : ∀ i, i < A.n → A.entry i i ≠ 0)
    (hmsr : A.UnitDiag → ∀ i, i < A.n → 0 < A.entry i i) :
    Ok (A.scaleSymm realRsq b d) fun r => r.1.WF ∧ r.1.n = A.n ∧ r.1.fmt = A.fmt ∧
      (∀ i, i < A.n → |r.1.entry i i| = 1) ∧
      ∀ y, IsMul A.n A.n r.1.entry y r.2.1.get ↔ IsMul A.n A.n A.entry (fun j => r.2.2.get j * y j) b.get := by
  refine (AnyMat.scaleSymm_spec realRsq (fun v hv => realRsq_ne hv) h hd hr hp hbsc hcoo b d hb hs hnz ?_).mono ?_
  · intro hu i hi
    have := hmsr hu i hi
    rw [mul_assoc, realRsq_sq this.ne', abs_of_pos this]; field_simp
  · rintro r ⟨h1, h2, h3, h4, h5, h6, h7⟩
    refine ⟨h1, h2, h3, fun i hi => ?_, h7⟩
    rw [h5 i i hi hi, h4 i hi, mul_assoc, realRsq_sq (hnz i hi), abs_mul, abs_div, abs_one, abs_abs,
      mul_one_div, div_self (abs_pos.2 (hnz i hi)).ne']

end Lis
