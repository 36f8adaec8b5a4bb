import Verif.Props.CsrOps
import Verif.Props.Convert1
import Mathlib.Algebra.BigOperators.Field

/-!
# C13: scaling; Frobenius norm, transposition and sorting of CSR matrices
-/

namespace Lis
open Finset
variable {R : Type}

theorem scaleRow_spec [Mul R] {A : Csr R} (h : A.WF) {i : ℕ} (hi : i < A.n) {d v : Arr R} (hd : A.n ≤ d.size)
    (hv : v.size = A.value.size) :
    Ok (scaleRow A d i v) fun v' => v'.size = v.size ∧
      (∀ k, ¬ (A.ptr.get i ≤ k ∧ k < A.ptr.get (i + 1)) → v'.get k = v.get k) ∧
      ∀ k, A.ptr.get i ≤ k → k < A.ptr.get (i + 1) → v'.get k = v.get k * d.get i := by
  have hps := h.ptr.size
  have hvs := h.vsz
  unfold scaleRow
  simp only [Ok_bind, Ok_rd]
  refine ⟨by omega, by omega, ?_⟩
  refine Ok_loop_fill (fun k => v.get k * d.get i) ?_ fun y h1 h2 h3 => ⟨h1, h3, h2⟩
  intro k y k1 k2 hy hg _
  have hk : k < A.nnz := h.ptr.lt_nnz hi k2
  simp only [Ok_bind, Ok_rd, Ok_wr]
  exact ⟨by omega, by omega, by omega, by rw [hg k (by omega)]⟩

theorem scaleSymmRow_spec [Mul R] {A : Csr R} (h : A.WF) {i : ℕ} (hi : i < A.n) {d v : Arr R} (hd : A.n ≤ d.size)
    (hd' : A.np ≤ d.size) (hv : v.size = A.value.size) :
    Ok (scaleSymmRow A d i v) fun v' => v'.size = v.size ∧
      (∀ k, ¬ (A.ptr.get i ≤ k ∧ k < A.ptr.get (i + 1)) → v'.get k = v.get k) ∧
      ∀ k, A.ptr.get i ≤ k → k < A.ptr.get (i + 1) → v'.get k = v.get k * d.get i * d.get (A.index.get k) := by
  have hps := h.ptr.size
  have his := h.isz
  have hvs := h.vsz
  unfold scaleSymmRow
  simp only [Ok_bind, Ok_rd]
  refine ⟨by omega, by omega, ?_⟩
  refine Ok_loop_fill (fun k => v.get k * d.get i * d.get (A.index.get k)) ?_ fun y h1 h2 h3 => ⟨h1, h3, h2⟩
  intro k y k1 k2 hy hg _
  have hk : k < A.nnz := h.ptr.lt_nnz hi k2
  have hidx := h.idx k hk
  simp only [Ok_bind, Ok_rd, Ok_wr]
  exact ⟨by omega, by omega, by omega, by omega, by omega, by rw [hg k (by omega)]⟩

/-- "row `i` holds the given multiples of the original values" -/
def ScaledRow [Mul R] (A : Csr R) (f : ℕ → ℕ → R → R) (i : ℕ) (v : ℕ → R) : Prop :=
  ∀ k, A.ptr.get i ≤ k → k < A.ptr.get (i + 1) → v k = f i (A.index.get k) (A.value.get k)

theorem ScaledRow.congr [Mul R] {A : Csr R} {f : ℕ → ℕ → R → R} (r : ℕ) (u v : ℕ → R)
    (h : ∀ k, A.ptr.get r ≤ k → k < A.ptr.get (r + 1) → u k = v k) (hu : ScaledRow A f r u) : ScaledRow A f r v :=
  fun k k1 k2 => by rw [← h k k1 k2]; exact hu k k1 k2

theorem RowsDone.wf {A : Csr R} (h : A.WF) {P : ℕ → (ℕ → R) → Prop} {v : Arr R} {i : ℕ} (hI : RowsDone A P i v) :
    (Csr.mk A.n A.np A.nnz A.ptr A.index v).WF :=
  ⟨h.ptr, h.isz, by simpa only [hI.size] using h.vsz, h.idx⟩

theorem ScaledRow.entry [NonUnitalNonAssocSemiring R] {A : Csr R} {f : ℕ → ℕ → R → R} {i : ℕ} {v : Arr R}
    (h : ScaledRow A f i v.get) (hadd : ∀ j a b, f i j (a + b) = f i j a + f i j b) (h0 : ∀ j, f i j 0 = 0) (j : ℕ) :
    (Csr.mk A.n A.np A.nnz A.ptr A.index v).entry i j = f i j (A.entry i j) := by
  unfold Csr.entry
  simp only
  have : ∀ s : Finset ℕ, ∀ g : ℕ → R, f i j (∑ k ∈ s, g k) = ∑ k ∈ s, f i j (g k) := by
    intro s g
    induction s using Finset.induction_on with
    | empty => simpa using h0 j
    | insert a s ha ih => rw [sum_insert ha, sum_insert ha, hadd, ih]
  rw [this]
  refine sum_congr rfl fun k hk => ?_
  rw [mem_Ico] at hk
  rw [h k hk.1 hk.2]
  split
  · next hj => rw [hj]
  · rw [h0]

/-- **C13 (kernel).** `lis_matrix_scale_csr` multiplies row `i` by `d_i`. -/
theorem scaleCsr_spec [NonUnitalNonAssocSemiring R] {A : Csr R} (h : A.WF) (d : Arr R) (hd : A.n ≤ d.size) :
    Ok (scaleCsr A d) fun B => B.WF ∧ B.n = A.n ∧ B.np = A.np ∧
      ∀ i j, i < A.n → B.entry i j = A.entry i j * d.get i := by
  unfold scaleCsr
  rw [Ok_bind]
  refine Ok_loop_le (fun i v => RowsDone A (ScaledRow A fun i _ a => a * d.get i) i v) (Nat.zero_le _)
    (RowsDone.start A _) ?_ ?_
  · intro i v _ hi hI
    refine (scaleRow_spec h hi hd hI.size).mono ?_
    rintro v' ⟨a1, a2, a3⟩
    exact hI.step h ScaledRow.congr hi a1 a2 fun k k1 k2 => by rw [a3 k k1 k2, hI.later k k1]
  · intro v hI
    rw [Ok_pure]
    exact ⟨hI.wf h, rfl, rfl, fun i j hi =>
      (hI.done i hi).entry (fun _ a b => add_mul a b _) (fun _ => zero_mul _) j⟩

/-- **C13 (kernel).** `lis_matrix_scale_symm_csr` computes `diag(d) A diag(d)`. -/
theorem scaleSymmCsr_spec [NonUnitalNonAssocSemiring R] {A : Csr R} (h : A.WF) (d : Arr R) (hd : A.n ≤ d.size)
    (hd' : A.np ≤ d.size) :
    Ok (scaleSymmCsr A d) fun B => B.WF ∧ B.n = A.n ∧ B.np = A.np ∧
      ∀ i j, i < A.n → B.entry i j = A.entry i j * d.get i * d.get j := by
  unfold scaleSymmCsr
  rw [Ok_bind]
  refine Ok_loop_le (fun i v => RowsDone A (ScaledRow A fun i j a => a * d.get i * d.get j) i v) (Nat.zero_le _)
    (RowsDone.start A _) ?_ ?_
  · intro i v _ hi hI
    refine (scaleSymmRow_spec h hi hd hd' hI.size).mono ?_
    rintro v' ⟨a1, a2, a3⟩
    exact hI.step h ScaledRow.congr hi a1 a2 fun k k1 k2 => by rw [a3 k k1 k2, hI.later k k1]
  · intro v hI
    rw [Ok_pure]
    exact ⟨hI.wf h, rfl, rfl, fun i j hi =>
      (hI.done i hi).entry (fun _ a b => by rw [add_mul, add_mul]) (fun _ => by rw [zero_mul, zero_mul]) j⟩

theorem split_wf_of {A : SplitCsr R} (h : A.WF) {D lv uv : Arr R} (hD : D.size = A.D.size)
    (hl : lv.size = A.L.value.size) (hu : uv.size = A.U.value.size) :
    (SplitCsr.mk A.n A.np D { A.L with value := lv } { A.U with value := uv }).WF :=
  ⟨by simp only; rw [hD]; exact h.dsz, h.le, h.ln, h.lnp, h.un, h.unp,
    ⟨h.lwf.ptr, h.lwf.isz, by simpa only [hl] using h.lwf.vsz, h.lwf.idx⟩,
    ⟨h.uwf.ptr, h.uwf.isz, by simpa only [hu] using h.uwf.vsz, h.uwf.idx⟩⟩

/-- `lis_matrix_scale_csr` on a split matrix: off-diagonal rows times `d_i`, and the diagonal is *set* to 1. -/
theorem scaleSplitCsr_spec [NonAssocSemiring R] {A : SplitCsr R} (h : A.WF) (hs : A.Strict) (d : Arr R)
    (hd : A.n ≤ d.size) :
    Ok (scaleSplitCsr A d) fun B => B.WF ∧ B.Strict ∧ B.n = A.n ∧ B.np = A.np ∧
      ∀ i j, i < A.n → B.entry i j = if i = j then 1 else A.entry i j * d.get i := by
  have hds := h.dsz
  unfold scaleSplitCsr
  rw [Ok_bind]
  refine Ok_loop_le (fun i (s : Arr R × Arr R × Arr R) => (s.1.size = A.D.size ∧ ∀ r, r < i → s.1.get r = 1) ∧
    RowsDone A.L (ScaledRow A.L fun i _ a => a * d.get i) i s.2.1 ∧
    RowsDone A.U (ScaledRow A.U fun i _ a => a * d.get i) i s.2.2) (Nat.zero_le _)
    ⟨⟨rfl, fun r hr => by omega⟩, RowsDone.start A.L _, RowsDone.start A.U _⟩ ?_ ?_
  · rintro i ⟨D, lv, uv⟩ - hi ⟨⟨hD, hD1⟩, hl, hu⟩
    simp only at hD hD1 hl hu
    simp only [Ok_bind, Ok_wr]
    refine ⟨by omega, ?_⟩
    refine (scaleRow_spec h.lwf (by rw [h.ln]; omega) (by rw [h.ln]; omega) hl.size).mono ?_
    rintro lv' ⟨a1, a2, a3⟩
    refine (scaleRow_spec h.uwf (by rw [h.un]; omega) (by rw [h.un]; omega) hu.size).mono ?_
    rintro uv' ⟨b1, b2, b3⟩
    rw [Ok_pure]
    refine ⟨⟨hD, fun r hr => ?_⟩, hl.step h.lwf ScaledRow.congr (by rw [h.ln]; omega) a1 a2 ?_,
      hu.step h.uwf ScaledRow.congr (by rw [h.un]; omega) b1 b2 ?_⟩
    · rw [Arr.set_get]; split
      · rfl
      · exact hD1 r (by omega)
    · intro k k1 k2; rw [a3 k k1 k2, hl.later k k1]
    · intro k k1 k2; rw [b3 k k1 k2, hu.later k k1]
  · rintro ⟨D, lv, uv⟩ ⟨⟨hD, hD1⟩, hl, hu⟩
    rw [Ok_pure]
    refine ⟨split_wf_of h hD hl.size hu.size, ⟨hs.low, hs.up⟩, rfl, rfl, fun i j hi => ?_⟩
    unfold SplitCsr.entry
    simp only
    have e1 := (hl.done i hi).entry (fun _ a b => add_mul a b (d.get i)) (fun _ => zero_mul _) j
    have e2 := (hu.done i hi).entry (fun _ a b => add_mul a b (d.get i)) (fun _ => zero_mul _) j
    rw [e1, e2]
    split
    · next hij =>
      subst hij
      rw [Csr.entry_absent fun k k1 k2 => by have := hs.low i hi k k1 k2; omega,
        Csr.entry_absent fun k k1 k2 => by have := hs.up i hi k k1 k2; omega, hD1 i hi]; simp
    · rw [zero_add, zero_add, add_mul]

/-- `lis_matrix_scale_symm_csr` on a split matrix: off-diagonal elements times `d_i d_j`, the diagonal *set* to 1. -/
theorem scaleSymmSplitCsr_spec [NonAssocSemiring R] {A : SplitCsr R} (h : A.WF) (hs : A.Strict) (d : Arr R)
    (hd : A.n ≤ d.size) (hd' : A.np ≤ d.size) :
    Ok (scaleSymmSplitCsr A d) fun B => B.WF ∧ B.Strict ∧ B.n = A.n ∧ B.np = A.np ∧
      ∀ i j, i < A.n → B.entry i j = if i = j then 1 else A.entry i j * d.get i * d.get j := by
  have hds := h.dsz
  unfold scaleSymmSplitCsr
  rw [Ok_bind]
  refine Ok_loop_le (fun i (s : Arr R × Arr R × Arr R) => (s.1.size = A.D.size ∧ ∀ r, r < i → s.1.get r = 1) ∧
    RowsDone A.L (ScaledRow A.L fun i j a => a * d.get i * d.get j) i s.2.1 ∧
    RowsDone A.U (ScaledRow A.U fun i j a => a * d.get i * d.get j) i s.2.2) (Nat.zero_le _)
    ⟨⟨rfl, fun r hr => by omega⟩, RowsDone.start A.L _, RowsDone.start A.U _⟩ ?_ ?_
  · rintro i ⟨D, lv, uv⟩ - hi ⟨⟨hD, hD1⟩, hl, hu⟩
    simp only at hD hD1 hl hu
    simp only [Ok_bind, Ok_wr]
    refine ⟨by omega, ?_⟩
    refine (scaleSymmRow_spec h.lwf (by rw [h.ln]; omega) (by rw [h.ln]; omega) (by rw [h.lnp]; omega) hl.size).mono ?_
    rintro lv' ⟨a1, a2, a3⟩
    refine (scaleSymmRow_spec h.uwf (by rw [h.un]; omega) (by rw [h.un]; omega) (by rw [h.unp]; omega) hu.size).mono ?_
    rintro uv' ⟨b1, b2, b3⟩
    rw [Ok_pure]
    refine ⟨⟨hD, fun r hr => ?_⟩, hl.step h.lwf ScaledRow.congr (by rw [h.ln]; omega) a1 a2 ?_,
      hu.step h.uwf ScaledRow.congr (by rw [h.un]; omega) b1 b2 ?_⟩
    · rw [Arr.set_get]; split
      · rfl
      · exact hD1 r (by omega)
    · intro k k1 k2; rw [a3 k k1 k2, hl.later k k1]
    · intro k k1 k2; rw [b3 k k1 k2, hu.later k k1]
  · rintro ⟨D, lv, uv⟩ ⟨⟨hD, hD1⟩, hl, hu⟩
    rw [Ok_pure]
    refine ⟨split_wf_of h hD hl.size hu.size, ⟨hs.low, hs.up⟩, rfl, rfl, fun i j hi => ?_⟩
    unfold SplitCsr.entry
    simp only
    have e1 := (hl.done i hi).entry (fun j a b => by rw [add_mul, add_mul])
      (fun _ => by rw [zero_mul, zero_mul]) j
    have e2 := (hu.done i hi).entry (fun j a b => by rw [add_mul, add_mul])
      (fun _ => by rw [zero_mul, zero_mul]) j
    rw [e1, e2]
    split
    · next hij =>
      subst hij
      rw [Csr.entry_absent fun k k1 k2 => by have := hs.low i hi k k1 k2; omega,
        Csr.entry_absent fun k k1 k2 => by have := hs.up i hi k k1 k2; omega, hD1 i hi]; simp
    · rw [zero_add, zero_add, add_mul, add_mul]

/-! ### the whole of lis_matrix_scale -/

/-- the two element-wise loops of `lis_matrix_scale` -/
theorem Ok_mapLoop {n : ℕ} {d : Arr R} (hd : n ≤ d.size) (f : R → R) {Q : Arr R → Prop}
    (hq : ∀ d' : Arr R, d'.size = d.size → (∀ i, i < n → d'.get i = f (d.get i)) → Q d') :
    Ok (loop 0 n d fun i d => do
      let v ← d.rd i
      d.wr i (f v)) Q := by
  refine Ok_loop_fill (fun i => f (d.get i)) ?_ fun y h1 h2 _ => hq y h1 fun i hi => h2 i (by omega) hi
  intro i y _ hi hy hg _
  simp only [Ok_bind, Ok_rd, Ok_wr]
  exact ⟨by omega, by omega, by rw [hg i (by omega)]⟩

theorem Ok_rhsLoop [Mul R] {n : ℕ} {b d : Arr R} (hb : n ≤ b.size) (hd : n ≤ d.size) {Q : Arr R → Prop}
    (hq : ∀ b' : Arr R, b'.size = b.size → (∀ i, i < n → b'.get i = b.get i * d.get i) → Q b') :
    Ok (loop 0 n b fun i b => do
      let v ← b.rd i
      let w ← d.rd i
      b.wr i (v * w)) Q := by
  refine Ok_loop_fill (fun i => b.get i * d.get i) ?_ fun y h1 h2 _ => hq y h1 fun i hi => h2 i (by omega) hi
  intro i y _ hi hy hg _
  simp only [Ok_bind, Ok_rd, Ok_wr]
  exact ⟨by omega, by omega, by omega, by rw [hg i (by omega)]⟩

/-- **C13 (Jacobi scaling).** The scaled system `A' x = b'` has the same solutions as `A x = b`; `A'` has unit diagonal. -/
theorem matrixScaleJacobi_spec [Field R] {A : Csr R} (h : A.WF) (hd : ∀ i, i < A.n → A.DiagOnce i) (b d : Arr R)
    (hb : A.n ≤ b.size) (hds : A.n ≤ d.size) (hnz : ∀ i, i < A.n → A.entry i i ≠ 0) :
    Ok (matrixScaleJacobi (·⁻¹) A b d) fun r => r.1.WF ∧ r.1.n = A.n ∧ r.1.np = A.np ∧
      (∀ i j, i < A.n → r.1.entry i j = A.entry i j / A.entry i i) ∧
      (∀ i, i < A.n → r.2.1.get i = b.get i / A.entry i i) ∧
      ∀ x, IsMul A.n A.np r.1.entry x r.2.1.get ↔ IsMul A.n A.np A.entry x b.get := by
  unfold matrixScaleJacobi
  rw [Ok_bind]
  refine (getDiagonalCsr_spec h (fun i hi _ => hd i hi) d hds).mono ?_
  rintro d1 ⟨a1, a2, -⟩
  rw [Ok_bind]
  refine Ok_mapLoop (by omega) _ fun d2 b1 b2 => ?_
  rw [Ok_bind]
  refine (scaleCsr_spec h d2 (by omega)).mono ?_
  rintro A' ⟨c1, c2, c3, c4⟩
  rw [Ok_bind]
  refine Ok_rhsLoop hb (by omega) fun b' e1 e2 => ?_
  rw [Ok_pure]
  have hA : ∀ i j, i < A.n → A'.entry i j = A.entry i j / A.entry i i := fun i j hi => by
    rw [c4 i j hi, b2 i hi, a2 i hi, div_eq_mul_inv]
  have hb' : ∀ i, i < A.n → b'.get i = b.get i / A.entry i i := fun i hi => by
    rw [e2 i hi, b2 i hi, a2 i hi, div_eq_mul_inv]
  refine ⟨c1, c2, c3, hA, hb', fun x => ?_⟩
  unfold IsMul
  refine forall_congr' fun i => forall_congr' fun hi => ?_
  have : ∑ j ∈ range A.np, A'.entry i j * x j = (∑ j ∈ range A.np, A.entry i j * x j) / A.entry i i := by
    rw [sum_div]
    refine sum_congr rfl fun j _ => ?_
    rw [hA i j hi]; ring
  simp only [this, hb' i hi]
  exact div_left_inj' (hnz i hi)

/-- **C13 (symmetric scaling).** With `d_i = rsq(A(i,i))` (in C `1/sqrt(fabs(·))`), `y` solves the scaled system iff
`x = diag(d) y` solves the original one. -/
theorem matrixScaleSymm_spec [Field R] (rsq : R → R) (hr : ∀ v, v ≠ 0 → rsq v ≠ 0) {A : Csr R} (h : A.WF)
    (hnp : A.np = A.n) (hd : ∀ i, i < A.n → A.DiagOnce i) (b d : Arr R)
    (hb : A.n ≤ b.size) (hds : A.n ≤ d.size) (hnz : ∀ i, i < A.n → A.entry i i ≠ 0) :
    Ok (matrixScaleSymm rsq A b d) fun r => r.1.WF ∧ r.1.n = A.n ∧ r.1.np = A.np ∧
      (∀ i, i < A.n → r.2.2.get i = rsq (A.entry i i)) ∧
      (∀ i j, i < A.n → r.1.entry i j = A.entry i j * r.2.2.get i * r.2.2.get j) ∧
      (∀ i, i < A.n → r.2.1.get i = b.get i * r.2.2.get i) ∧
      ∀ y, IsMul A.n A.np r.1.entry y r.2.1.get ↔ IsMul A.n A.np A.entry (fun j => r.2.2.get j * y j) b.get := by
  unfold matrixScaleSymm
  rw [Ok_bind]
  refine (getDiagonalCsr_spec h (fun i hi _ => hd i hi) d hds).mono ?_
  rintro d1 ⟨a1, a2, -⟩
  rw [Ok_bind]
  refine Ok_mapLoop (by omega) _ fun d2 b1 b2 => ?_
  rw [Ok_bind]
  refine (scaleSymmCsr_spec h d2 (by omega) (by omega)).mono ?_
  rintro A' ⟨c1, c2, c3, c4⟩
  rw [Ok_bind]
  refine Ok_rhsLoop hb (by omega) fun b' e1 e2 => ?_
  rw [Ok_pure]
  have hd2 : ∀ i, i < A.n → d2.get i = rsq (A.entry i i) := fun i hi => by rw [b2 i (by omega), a2 i hi]
  refine ⟨c1, c2, c3, hd2, c4, e2, fun y => ?_⟩
  unfold IsMul
  refine forall_congr' fun i => forall_congr' fun hi => ?_
  have : ∑ j ∈ range A.np, A'.entry i j * y j = (∑ j ∈ range A.np, A.entry i j * (d2.get j * y j)) * d2.get i := by
    rw [sum_mul]
    refine sum_congr rfl fun j _ => ?_
    rw [c4 i j hi]; ring
  simp only [this, e2 i hi]
  exact mul_left_inj' (by rw [hd2 i hi]; exact hr _ (hnz i hi))

/-- the C expression `1.0/sqrt(fabs(v))` over the reals -/
noncomputable def realRsq (v : ℝ) : ℝ := 1 / Real.sqrt |v|

theorem realRsq_ne {v : ℝ} (h : v ≠ 0) : realRsq v ≠ 0 := by
  unfold realRsq
  have : 0 < Real.sqrt |v| := Real.sqrt_pos.2 (abs_pos.2 h)
  positivity

theorem realRsq_sq {v : ℝ} (h : v ≠ 0) : realRsq v * realRsq v = 1 / |v| := by
  unfold realRsq
  rw [div_mul_div_comm, Real.mul_self_sqrt (abs_nonneg v), one_mul]

/-- symmetric scaling over the reals gives diagonal `sign(A(i,i))`: 1 for a positive, -1 for a negative diagonal -/
theorem matrixScaleSymm_diag {A : Csr ℝ} (h : A.WF) (hnp : A.np = A.n) (hd : ∀ i, i < A.n → A.DiagOnce i)
    (b d : Arr ℝ) (hb : A.n ≤ b.size) (hds : A.n ≤ d.size) (hnz : ∀ i, i < A.n → A.entry i i ≠ 0) :
    Ok (matrixScaleSymm realRsq A b d) fun r =>
      ∀ i, i < A.n → r.1.entry i i = if 0 < A.entry i i then 1 else -1 := by
  refine (matrixScaleSymm_spec realRsq (fun _ => realRsq_ne) h hnp hd b d hb hds hnz).mono ?_
  rintro r ⟨-, -, -, h4, h5, -, -⟩ i hi
  rw [h5 i i hi, h4 i hi, mul_assoc, realRsq_sq (hnz i hi)]
  split
  · next hp => rw [abs_of_pos hp]; field_simp
  · next hp =>
    have : A.entry i i < 0 := lt_of_le_of_ne (not_lt.1 hp) (hnz i hi)
    rw [abs_of_neg this]; have := hnz i hi; field_simp

/-- **C13 (Jacobi, split matrix).** Same statement. -/
theorem matrixScaleJacobiSplit_spec [Field R] {A : SplitCsr R} (h : A.WF) (hs : A.Strict) (b d : Arr R)
    (hb : A.n ≤ b.size) (hds : A.n ≤ d.size) (hnz : ∀ i, i < A.n → A.entry i i ≠ 0) :
    Ok (matrixScaleJacobiSplit (·⁻¹) A b d) fun r => r.1.WF ∧ r.1.Strict ∧ r.1.n = A.n ∧ r.1.np = A.np ∧
      (∀ i j, i < A.n → r.1.entry i j = A.entry i j / A.entry i i) ∧
      (∀ i, i < A.n → r.2.1.get i = b.get i / A.entry i i) ∧
      ∀ x, IsMul A.n A.np r.1.entry x r.2.1.get ↔ IsMul A.n A.np A.entry x b.get := by
  unfold matrixScaleJacobiSplit
  rw [Ok_bind]
  refine (getDiagonalSplitCsr_spec h hs d hds).mono ?_
  rintro d1 ⟨a1, a2, -⟩
  rw [Ok_bind]
  refine Ok_mapLoop (by omega) _ fun d2 b1 b2 => ?_
  rw [Ok_bind]
  refine (scaleSplitCsr_spec h hs d2 (by omega)).mono ?_
  rintro A' ⟨c1, c1', c2, c3, c4⟩
  rw [Ok_bind]
  refine Ok_rhsLoop hb (by omega) fun b' e1 e2 => ?_
  rw [Ok_pure]
  have hA : ∀ i j, i < A.n → A'.entry i j = A.entry i j / A.entry i i := fun i j hi => by
    rw [c4 i j hi]
    split
    · next hij => subst hij; rw [div_self (hnz i hi)]
    · rw [b2 i hi, a2 i hi, div_eq_mul_inv]
  have hb' : ∀ i, i < A.n → b'.get i = b.get i / A.entry i i := fun i hi => by
    rw [e2 i hi, b2 i hi, a2 i hi, div_eq_mul_inv]
  refine ⟨c1, c1', c2, c3, hA, hb', fun x => ?_⟩
  unfold IsMul
  refine forall_congr' fun i => forall_congr' fun hi => ?_
  have : ∑ j ∈ range A.np, A'.entry i j * x j = (∑ j ∈ range A.np, A.entry i j * x j) / A.entry i i := by
    rw [sum_div]
    refine sum_congr rfl fun j _ => ?_
    rw [hA i j hi]; ring
  simp only [this, hb' i hi]
  exact div_left_inj' (hnz i hi)

/-- **C13 (symmetric, split matrix)**, positive diagonal. -/
theorem matrixScaleSymmSplit_spec {A : SplitCsr ℝ} (h : A.WF) (hs : A.Strict) (hnp : A.np = A.n) (b d : Arr ℝ)
    (hb : A.n ≤ b.size) (hds : A.n ≤ d.size) (hpos : ∀ i, i < A.n → 0 < A.entry i i) :
    Ok (matrixScaleSymmSplit realRsq A b d) fun r => r.1.WF ∧ r.1.Strict ∧ r.1.n = A.n ∧ r.1.np = A.np ∧
      (∀ i, i < A.n → r.2.2.get i = realRsq (A.entry i i)) ∧
      (∀ i j, i < A.n → r.1.entry i j = A.entry i j * r.2.2.get i * r.2.2.get j) ∧
      (∀ i, i < A.n → r.2.1.get i = b.get i * r.2.2.get i) ∧
      ∀ y, IsMul A.n A.np r.1.entry y r.2.1.get ↔ IsMul A.n A.np A.entry (fun j => r.2.2.get j * y j) b.get := by
  unfold matrixScaleSymmSplit
  rw [Ok_bind]
  refine (getDiagonalSplitCsr_spec h hs d hds).mono ?_
  rintro d1 ⟨a1, a2, -⟩
  rw [Ok_bind]
  refine Ok_mapLoop (by omega) _ fun d2 b1 b2 => ?_
  rw [Ok_bind]
  refine (scaleSymmSplitCsr_spec h hs d2 (by omega) (by omega)).mono ?_
  rintro A' ⟨c1, c1', c2, c3, c4⟩
  rw [Ok_bind]
  refine Ok_rhsLoop hb (by omega) fun b' e1 e2 => ?_
  rw [Ok_pure]
  have hd2 : ∀ i, i < A.n → d2.get i = realRsq (A.entry i i) := fun i hi => by rw [b2 i (by omega), a2 i hi]
  have hA : ∀ i j, i < A.n → A'.entry i j = A.entry i j * d2.get i * d2.get j := fun i j hi => by
    rw [c4 i j hi]
    split
    · next hij =>
      subst hij
      have := hpos i hi
      rw [hd2 i hi, mul_assoc, realRsq_sq this.ne', abs_of_pos this]; field_simp
    · rfl
  refine ⟨c1, c1', c2, c3, hd2, hA, e2, fun y => ?_⟩
  unfold IsMul
  refine forall_congr' fun i => forall_congr' fun hi => ?_
  have : ∑ j ∈ range A.np, A'.entry i j * y j = (∑ j ∈ range A.np, A.entry i j * (d2.get j * y j)) * d2.get i := by
    rw [sum_mul]
    refine sum_congr rfl fun j _ => ?_
    rw [hA i j hi]; ring
  simp only [this, e2 i hi]
  exact mul_left_inj' (by rw [hd2 i hi]; exact realRsq_ne (hpos i hi).ne')

/-- **C13, exception.** Symmetric scaling of a *split* matrix sets the diagonal to `+1` even where `A(i,i) < 0`, where
`diag(d) A diag(d)` has `-1`: the scaled system is a different one. -/
theorem matrixScaleSymmSplit_negative {A : SplitCsr ℝ} (h : A.WF) (hs : A.Strict) (hnp : A.np = A.n) (b d : Arr ℝ)
    (hb : A.n ≤ b.size) (hds : A.n ≤ d.size) {i : ℕ} (hi : i < A.n) (hneg : A.entry i i < 0) :
    Ok (matrixScaleSymmSplit realRsq A b d) fun r =>
      r.1.entry i i = 1 ∧ A.entry i i * r.2.2.get i * r.2.2.get i = -1 := by
  unfold matrixScaleSymmSplit
  rw [Ok_bind]
  refine (getDiagonalSplitCsr_spec h hs d hds).mono ?_
  rintro d1 ⟨a1, a2, -⟩
  rw [Ok_bind]
  refine Ok_mapLoop (by omega) _ fun d2 b1 b2 => ?_
  rw [Ok_bind]
  refine (scaleSymmSplitCsr_spec h hs d2 (by omega) (by omega)).mono ?_
  rintro A' ⟨c1, c1', c2, c3, c4⟩
  rw [Ok_bind]
  refine Ok_rhsLoop hb (by omega) fun b' e1 e2 => ?_
  rw [Ok_pure]
  refine ⟨by rw [c4 i i hi, if_pos rfl], ?_⟩
  rw [b2 i (by omega), a2 i hi, mul_assoc, realRsq_sq hneg.ne, abs_of_neg hneg]
  have := hneg.ne; field_simp

/-! ### norm, transpose, sort -/

/-- Frobenius norm: the square root of the sum of the squares of the stored elements -/
theorem normfCsr_spec [NonUnitalNonAssocSemiring R] (sqrt : R → R) {A : Csr R} (h : A.WF) :
    Ok (normfCsr sqrt A) fun r =>
      r = sqrt (∑ i ∈ range A.n, ∑ k ∈ Ico (A.ptr.get i) (A.ptr.get (i + 1)), A.value.get k * A.value.get k) := by
  have hps := h.ptr.size
  have hvs := h.vsz
  unfold normfCsr
  rw [Ok_bind]
  refine Ok_loop_sum' (fun i => ∑ k ∈ Ico (A.ptr.get i) (A.ptr.get (i + 1)), A.value.get k * A.value.get k) ?_ ?_
  · intro i t _ hi
    unfold sqRow
    simp only [Ok_bind, Ok_rd]
    refine ⟨by omega, by omega, ?_⟩
    refine Ok_loop_sum' (fun k => A.value.get k * A.value.get k) (fun k t k1 k2 => ?_) rfl
    have hk : k < A.nnz := h.ptr.lt_nnz hi k2
    simp only [Ok_bind, Ok_rd, Ok_pure]
    exact ⟨by omega, by omega, trivial⟩
  · rw [Ok_pure, sum_Ico_zero, zero_add]

theorem sqRow_spec [NonUnitalNonAssocSemiring R] {A : Csr R} (h : A.WF) {i : ℕ} (hi : i < A.n) (t : R) :
    Ok (sqRow A i t) fun r =>
      r = t + ∑ k ∈ Ico (A.ptr.get i) (A.ptr.get (i + 1)), A.value.get k * A.value.get k := by
  have hps := h.ptr.size
  have hvs := h.vsz
  unfold sqRow
  simp only [Ok_bind, Ok_rd]
  refine ⟨by omega, by omega, ?_⟩
  refine Ok_loop_sum' (fun k => A.value.get k * A.value.get k) (fun k t k1 k2 => ?_) rfl
  have := h.ptr.lt_nnz hi k2
  simp only [Ok_bind, Ok_rd, Ok_pure]
  exact ⟨by omega, by omega, trivial⟩

/-- `lis_matrix_normf` of a split matrix: square root of the sum of the squares of the stored elements. -/
theorem normfSplitCsr_spec [NonUnitalNonAssocSemiring R] (sqrt : R → R) {A : SplitCsr R} (h : A.WF) :
    Ok (normfSplitCsr sqrt A) fun r =>
      r = sqrt (∑ i ∈ range A.n, (A.D.get i * A.D.get i +
        (∑ k ∈ Ico (A.L.ptr.get i) (A.L.ptr.get (i + 1)), A.L.value.get k * A.L.value.get k) +
        ∑ k ∈ Ico (A.U.ptr.get i) (A.U.ptr.get (i + 1)), A.U.value.get k * A.U.value.get k)) := by
  have hds := h.dsz
  have h1 := h.ln
  have h2 := h.un
  unfold normfSplitCsr
  rw [Ok_bind]
  refine Ok_loop_sum' (fun i => A.D.get i * A.D.get i +
        (∑ k ∈ Ico (A.L.ptr.get i) (A.L.ptr.get (i + 1)), A.L.value.get k * A.L.value.get k) +
        ∑ k ∈ Ico (A.U.ptr.get i) (A.U.ptr.get (i + 1)), A.U.value.get k * A.U.value.get k) ?_ ?_
  · intro i t _ hi
    simp only [Ok_bind, Ok_rd]
    refine ⟨by omega, by omega, ?_⟩
    refine (sqRow_spec h.lwf (by omega) _).mono ?_
    rintro _ rfl
    refine (sqRow_spec h.uwf (by omega) _).mono ?_
    rintro _ rfl
    simp only [add_assoc]
  · rw [Ok_pure, zero_add, range_eq_Ico]

/-- for a matrix without duplicates this is `sqrt(Σ A(i,j)²)` -/
theorem normfCsr_entries [NonUnitalNonAssocSemiring R] (sqrt : R → R) {A : Csr R} (h : A.WF) (hd : A.NoDup) :
    Ok (normfCsr sqrt A) fun r =>
      r = sqrt (∑ i ∈ range A.n, ∑ j ∈ range A.np, A.entry i j * A.entry i j) := by
  refine (normfCsr_spec sqrt h).mono ?_
  rintro r rfl
  congr 1
  refine sum_congr rfl fun i hi => ?_
  rw [mem_range] at hi
  have key : ∀ k ∈ Ico (A.ptr.get i) (A.ptr.get (i + 1)), A.value.get k * A.value.get k =
      ∑ j ∈ range A.np, if A.index.get k = j then A.value.get k * A.value.get k else 0 := by
    intro k hk
    rw [mem_Ico] at hk
    rw [sum_ite_eq, if_pos (mem_range.2 (h.idx k (h.ptr.lt_nnz hi hk.2)))]
  rw [sum_congr rfl key, sum_comm]
  refine sum_congr rfl fun j _ => ?_
  by_cases hx : ∃ k, A.ptr.get i ≤ k ∧ k < A.ptr.get (i + 1) ∧ A.index.get k = j
  · obtain ⟨k, k1, k2, k3⟩ := hx
    have hu : ∀ l, A.ptr.get i ≤ l → l < A.ptr.get (i + 1) → A.index.get l = j → l = k := fun l l1 l2 l3 =>
      hd i hi l k l1 l2 k1 k2 (l3.trans k3.symm)
    rw [Csr.entry_single k1 k2 k3 hu, sum_eq_single k]
    · rw [if_pos k3]
    · intro l hl hlk
      rw [mem_Ico] at hl
      rw [if_neg fun h => hlk (hu l hl.1 hl.2 h)]
    · intro hk; exact absurd (mem_Ico.2 ⟨k1, k2⟩) hk
  · rw [Csr.entry_absent fun k k1 k2 k3 => hx ⟨k, k1, k2, k3⟩, zero_mul]
    refine sum_eq_zero fun k hk => ?_
    rw [mem_Ico] at hk
    rw [if_neg fun h => hx ⟨k, hk.1, hk.2, h⟩]

/-- **C10b (transpose).** `lis_matrix_transpose_csr` yields `Aᵀ`. -/
theorem transposeCsr_spec [AddCommMonoid R] (junk : ℕ → ℕ → ℕ) (vjunk : ℕ → R) {A : Csr R} (h : A.WF) :
    Ok (transposeCsr junk vjunk A) fun B => B.WF ∧ B.n = A.np ∧ B.np = A.n ∧ B.nnz = A.nnz ∧
      ∀ i j, i < A.n → j < A.np → B.entry j i = A.entry i j := by
  unfold transposeCsr
  rw [Ok_bind]
  have hn : Ok (csr2csc junk vjunk A) fun B => B.nnz = A.nnz := by
    unfold csr2csc
    rw [Ok_bind]
    refine (transposeArrays_spec h _ _ (by omega) le_rfl junk vjunk).mono fun r _ => ?_
    rw [Ok_pure]
  refine ((csr2csc_spec junk vjunk A h).conj hn).mono ?_
  rintro B ⟨⟨h1, h2, h3, -, h5⟩, h6⟩
  rw [Ok_pure]
  exact ⟨⟨h1.ptr, h1.isz, h1.vsz, h1.idx⟩, h3, h2, h6, h5⟩

/-- rows sorted by column -/
def Csr.Sorted (A : Csr R) : Prop := ∀ i, i < A.n → ∀ k l, A.ptr.get i ≤ k → k ≤ l → l < A.ptr.get (i + 1) →
  A.index.get k ≤ A.index.get l

/-- `lis_matrix_sort_csr` sorts every row by column and keeps the matrix. -/
theorem sortCsr_spec [AddCommMonoid R] {A : Csr R} (h : A.WF) :
    Ok (sortCsr A) fun B => B.WF ∧ B.Sorted ∧ B.n = A.n ∧ B.np = A.np ∧
      ∀ i j, i < A.n → B.entry i j = A.entry i j := by
  have hps := h.ptr.size
  have his := h.isz
  have hvs := h.vsz
  unfold sortCsr
  rw [Ok_bind]
  refine Ok_loop_le (fun i (s : Arr ℕ × Arr R) => s.1.size = A.index.size ∧ s.2.size = A.value.size ∧
    (∀ k, k < A.nnz → s.1.get k < A.np) ∧
    (∀ k, A.ptr.get i ≤ k → s.1.get k = A.index.get k ∧ s.2.get k = A.value.get k) ∧
    (∀ r, r < i → (∀ k l, A.ptr.get r ≤ k → k ≤ l → l < A.ptr.get (r + 1) → s.1.get k ≤ s.1.get l) ∧
      ∀ j, (∑ k ∈ Ico (A.ptr.get r) (A.ptr.get (r + 1)), if s.1.get k = j then s.2.get k else 0) = A.entry r j))
    (Nat.zero_le _) ⟨rfl, rfl, h.idx, fun _ _ => ⟨rfl, rfl⟩, fun r hr => absurd hr (by omega)⟩ ?_ ?_
  · rintro i ⟨ix, vl⟩ - hi ⟨h1, h2, h3, h4, h5⟩
    simp only at h1 h2 h3 h4 h5
    have hm := h.ptr.mono i hi
    have hle := h.ptr.le_nnz (i := i + 1) (by omega)
    simp only [Ok_bind, Ok_rd]
    refine ⟨by omega, by omega, ?_⟩
    refine (lisSortId_spec _ _ (ix, vl) (by omega) (by simp only; omega) (by simp only; omega)).mono ?_
    rintro ⟨ix', vl'⟩ ⟨g, g1, ⟨g2, g2'⟩, ⟨g3, g3'⟩, g4⟩
    simp only at g2 g2' g3 g3' g4
    have hfix : ∀ k, ¬ (A.ptr.get i ≤ k ∧ k < A.ptr.get (i + 1)) → g k = k := fun k hk => g1 k (by omega)
    have hin : ∀ k, (A.ptr.get i ≤ k ∧ k < A.ptr.get (i + 1)) → (A.ptr.get i ≤ g k ∧ g k < A.ptr.get (i + 1)) := by
      intro k hk
      by_contra hc
      have := hfix (g k) hc
      have := g.injective this
      rw [this] at hc; exact hc hk
    refine ⟨by simp only; omega, by simp only; omega, fun k hk => ?_, fun k hk => ?_, fun r hr => ?_⟩
    · show ix'.get k < A.np
      rw [g2']
      by_cases hc : A.ptr.get i ≤ k ∧ k < A.ptr.get (i + 1)
      · have := hin k hc; exact h3 _ (by omega)
      · rw [hfix k hc]; exact h3 _ hk
    · show ix'.get k = _ ∧ vl'.get k = _
      rw [g2', g3', hfix k (by omega)]; exact h4 k (by omega)
    · by_cases hri : r = i
      · subst hri
        refine ⟨fun k l k1 k2 k3 => g4 k l (by omega) k2 (by omega), fun j => ?_⟩
        unfold Csr.entry
        refine sum_bij (fun k _ => g k) ?_ ?_ ?_ ?_
        · intro k hk; rw [mem_Ico] at hk ⊢; exact hin k hk
        · intro a _ b _ hab; exact g.injective hab
        · intro k hk
          refine ⟨g.symm k, ?_, by simp⟩
          rw [mem_Ico] at hk ⊢
          by_contra hc
          have := hfix _ hc
          rw [Equiv.apply_symm_apply] at this
          rw [← this] at hc; exact hc hk
        · intro k hk
          rw [mem_Ico] at hk
          have := h4 (g k) (hin k hk).1
          show (if ix'.get k = j then vl'.get k else 0) = _
          rw [g2', g3', this.1, this.2]
      · have hb := h.ptr.mono' (i := r + 1) (j := i) (by omega) (by omega)
        have hsame : ∀ k, k < A.ptr.get (r + 1) → ix'.get k = ix.get k ∧ vl'.get k = vl.get k := fun k hk => by
          rw [g2', g3', hfix k (by omega)]; exact ⟨rfl, rfl⟩
        refine ⟨fun k l k1 k2 k3 => ?_, fun j => ?_⟩
        · show ix'.get k ≤ ix'.get l
          rw [(hsame k (by omega)).1, (hsame l k3).1]; exact (h5 r (by omega)).1 k l k1 k2 k3
        · rw [← (h5 r (by omega)).2 j]
          refine sum_congr rfl fun k hk => ?_
          rw [mem_Ico] at hk
          show (if ix'.get k = j then vl'.get k else 0) = _
          rw [(hsame k hk.2).1, (hsame k hk.2).2]
  · rintro ⟨ix, vl⟩ ⟨h1, h2, h3, h4, h5⟩
    rw [Ok_pure]
    simp only at h1 h2 h3 h4 h5
    exact ⟨⟨h.ptr, by simp only; omega, by simp only; omega, h3⟩, fun i hi => (h5 i hi).1, rfl, rfl,
      fun i j hi => (h5 i hi).2 j⟩

end Lis
