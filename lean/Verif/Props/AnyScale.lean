import Verif.Lemmas.AnyOps
import Verif.Props.CsrScale

/-!
# C13 for every storage format: what the scaling functions do to the matrix entries
-/

namespace Lis
open Finset
variable {R : Type}

/-! ### CSC -/

theorem scaleCsc_upd [Mul R] {A : Csc R} (h : A.WF) (d : Arr R) (hd : A.n ≤ d.size) :
    Ok (scaleCsc A d) fun B => ∃ v, B = { A with value := v } ∧ Upd A.value (fun k g =>
      ∃ c, 0 ≤ c ∧ c < A.np ∧ ∃ x, A.ptr.get c ≤ x ∧ x < A.ptr.get (c + 1) ∧ k = x ∧
        g = fun t => t * d.get (A.index.get x)) v := by
  have hps := h.ptr.size
  have his := h.isz
  have hvs := h.vsz
  unfold scaleCsc
  rw [Ok_bind]
  refine (Ok_loop_upd (fun c k g => ∃ x, A.ptr.get c ≤ x ∧ x < A.ptr.get (c + 1) ∧ k = x ∧
    g = fun t => t * d.get (A.index.get x)) ?_ ?_).mono fun v hv => ?_
  · rintro x x' k g g' - h1 - h2 ⟨_, a1, a2, rfl, -⟩ ⟨_, b1, b2, rfl, -⟩
    exact h.ptr.row_unique h1 h2 a1 a2 b1 b2
  · intro c z _ hc hz
    simp only [Ok_bind, Ok_rd]
    refine ⟨by omega, by omega, ?_⟩
    refine Ok_loop_upd1 (fun x => x) (fun x t => t * d.get (A.index.get x)) (fun _ _ _ _ _ _ h => h) ?_
    intro x z' x1 x2 hz'
    have hx := h.ptr.lt_nnz hc x2
    have := h.idx x hx
    simp only [Ok_bind, Ok_rd, Ok_mulCell]
    exact ⟨by omega, by omega, by omega, trivial⟩
  · rw [Ok_pure]; exact ⟨v, rfl, hv⟩

/-- `lis_matrix_scale_csc`: `A ↦ diag(d) A` -/
theorem scaleCsc_spec [NonUnitalNonAssocSemiring R] {A : Csc R} (h : A.WF) (d : Arr R) (hd : A.n ≤ d.size) :
    Ok (scaleCsc A d) fun B => B.WF ∧ B.n = A.n ∧ B.np = A.np ∧
      ∀ i j, j < A.np → B.entry i j = A.entry i j * d.get i := by
  refine (scaleCsc_upd h d hd).mono ?_
  rintro _ ⟨v, rfl, hv⟩
  refine ⟨⟨h.ptr, h.isz, by rw [hv.1]; exact h.vsz, h.idx⟩, rfl, rfl, fun i j hj => ?_⟩
  unfold Csc.entry
  rw [sum_mul]
  refine sum_congr rfl fun k hk => ?_
  rw [mem_Ico] at hk
  simp only
  rw [hv.2.1 k _ ⟨j, by omega, hj, k, hk.1, hk.2, rfl, rfl⟩]
  split
  · next h => rw [h]
  · rw [zero_mul]

theorem scaleSymmCsc_spec [NonUnitalCommSemiring R] {A : Csc R} (h : A.WF) (d : Arr R) (hd : A.n ≤ d.size)
    (hnp : A.np ≤ d.size) :
    Ok (scaleSymmCsc A d) fun B => B.WF ∧ B.n = A.n ∧ B.np = A.np ∧
      ∀ i j, j < A.np → B.entry i j = A.entry i j * d.get i * d.get j := by
  have hps := h.ptr.size
  have his := h.isz
  have hvs := h.vsz
  unfold scaleSymmCsc
  rw [Ok_bind]
  refine (Ok_loop_upd (fun c k g => ∃ x, A.ptr.get c ≤ x ∧ x < A.ptr.get (c + 1) ∧ k = x ∧
    g = fun t => t * d.get c * d.get (A.index.get x)) ?_ ?_).mono fun v hv => ?_
  · rintro x x' k g g' - h1 - h2 ⟨_, a1, a2, rfl, -⟩ ⟨_, b1, b2, rfl, -⟩
    exact h.ptr.row_unique h1 h2 a1 a2 b1 b2
  · intro c z _ hc hz
    simp only [Ok_bind, Ok_rd]
    refine ⟨by omega, by omega, ?_⟩
    refine Ok_loop_upd1 (fun x => x) (fun x t => t * d.get c * d.get (A.index.get x)) (fun _ _ _ _ _ _ h => h) ?_
    intro x z' x1 x2 hz'
    have hx := h.ptr.lt_nnz hc x2
    have := h.idx x hx
    simp only [Ok_bind, Ok_rd, Ok_wr]
    exact ⟨by omega, by omega, by omega, by omega, by omega, trivial⟩
  · rw [Ok_pure]
    refine ⟨⟨h.ptr, h.isz, by rw [hv.1]; exact h.vsz, h.idx⟩, rfl, rfl, fun i j hj => ?_⟩
    unfold Csc.entry
    rw [mul_assoc, sum_mul]
    refine sum_congr rfl fun k hk => ?_
    rw [mem_Ico] at hk
    simp only
    rw [hv.2.1 k _ ⟨j, by omega, hj, k, hk.1, hk.2, rfl, rfl⟩]
    split
    · next h => rw [h, mul_assoc, mul_comm (d.get j)]
    · rw [zero_mul]

/-! ### COO -/

theorem scaleCoo_spec [NonUnitalNonAssocSemiring R] {A : Coo R} (h : A.WF) (d : Arr R) (hd : A.n ≤ d.size) :
    Ok (scaleCoo A d) fun B => B.WF ∧ B.n = A.n ∧ ∀ i j, B.entry i j = A.entry i j * d.get i := by
  have hr := h.rsz
  have hvs := h.vsz
  unfold scaleCoo
  rw [Ok_bind]
  refine (Ok_loop_upd1 (fun x => x) (fun x t => t * d.get (A.row.get x)) (fun _ _ _ _ _ _ h => h) ?_).mono
    fun v hv => ?_
  · intro x z _ hx hz
    have := h.row x hx
    simp only [Ok_bind, Ok_rd, Ok_mulCell]
    exact ⟨by omega, by omega, by omega, trivial⟩
  · rw [Ok_pure]
    refine ⟨⟨h.rsz, h.csz, by rw [hv.1]; exact h.vsz, h.row, h.col⟩, rfl, fun i j => ?_⟩
    unfold Coo.entry
    rw [sum_mul]
    refine sum_congr rfl fun k hk => ?_
    rw [mem_range] at hk
    simp only
    rw [hv.2.1 k _ ⟨k, by omega, hk, rfl, rfl⟩]
    split
    · next h => rw [h.1]
    · rw [zero_mul]

/-- what `lis_matrix_scale_symm_coo` really does: every element is multiplied by the square of its *row's* factor -/
theorem scaleSymmCoo_squares [NonUnitalSemiring R] {A : Coo R} (h : A.WF) (d : Arr R) (hd : A.n ≤ d.size) :
    Ok (scaleSymmCoo A d) fun B => B.WF ∧ B.n = A.n ∧ ∀ i j, B.entry i j = A.entry i j * (d.get i * d.get i) := by
  have hr := h.rsz
  have hvs := h.vsz
  unfold scaleSymmCoo
  rw [Ok_bind]
  refine (Ok_loop_upd1 (fun x => x) (fun x t => t * (d.get (A.row.get x) * d.get (A.row.get x)))
    (fun _ _ _ _ _ _ h => h) ?_).mono fun v hv => ?_
  · intro x z _ hx hz
    have := h.row x hx
    simp only [Ok_bind, Ok_rd, Ok_mulCell]
    exact ⟨by omega, by omega, by omega, by omega, by omega, trivial⟩
  · rw [Ok_pure]
    refine ⟨⟨h.rsz, h.csz, by rw [hv.1]; exact h.vsz, h.row, h.col⟩, rfl, fun i j => ?_⟩
    unfold Coo.entry
    rw [sum_mul]
    refine sum_congr rfl fun k hk => ?_
    rw [mem_range] at hk
    simp only
    rw [hv.2.1 k _ ⟨k, by omega, hk, rfl, rfl⟩]
    split
    · next h => rw [h.1]
    · rw [zero_mul]

/-! ### MSR -/

theorem Msr.WF.mono' {A : Msr R} (h : A.WF) {i j : ℕ} (hij : i ≤ j) (hj : j ≤ A.n) :
    A.index.get i ≤ A.index.get j := by
  induction j with
  | zero => simp_all
  | succ j ih =>
    rcases Nat.lt_or_ge i (j + 1) with h' | h'
    · exact (ih (by omega) (by omega)).trans (h.mono j (by omega))
    · rw [show i = j + 1 by omega]

theorem Msr.WF.rangeA {A : Msr R} (h : A.WF) {i k : ℕ} (hi : i < A.n) (h1 : A.index.get i ≤ k)
    (h2 : k < A.index.get (i + 1)) : A.n + 1 ≤ k ∧ k < A.n + 1 + A.nnz := by
  have a := h.mono' (i := 0) (j := i) (by omega) (by omega)
  have b := h.mono' (i := i + 1) (j := A.n) (by omega) (by omega)
  rw [h.zero] at a; rw [h.last] at b
  omega

theorem Msr.WF.row_unique {A : Msr R} (h : A.WF) {i i' k : ℕ} (hi : i < A.n) (hi' : i' < A.n)
    (h1 : A.index.get i ≤ k) (h2 : k < A.index.get (i + 1)) (h3 : A.index.get i' ≤ k)
    (h4 : k < A.index.get (i' + 1)) : i = i' := by
  rcases Nat.lt_trichotomy i i' with hl | hl | hl
  · have := h.mono' (i := i + 1) (j := i') hl (by omega); omega
  · exact hl
  · have := h.mono' (i := i' + 1) (j := i) hl (by omega); omega

/-- both MSR scaling loops: the diagonal becomes 1, the off-diagonal element `x` of row `i` is multiplied by `w i x` -/
theorem msrScale_upd [Mul R] [One R] {A : Msr R} (h : A.WF) (w : ℕ → ℕ → R → R) {f : ℕ → ℕ → Arr R → Option (Arr R)}
    (hf : ∀ i x z, i < A.n → A.index.get i ≤ x → x < A.index.get (i + 1) → z.size = A.value.size →
      Ok (f i x z) fun z' => z' = z.set x (w i x (z.get x))) :
    Ok (loop 0 A.n A.value fun i value => do
      let value ← value.wr i 1
      let a ← A.index.rd i
      let b ← A.index.rd (i + 1)
      loop a b value fun j value => f i j value) (Upd A.value fun k g => ∃ i, 0 ≤ i ∧ i < A.n ∧
        ((k = i ∧ g = fun _ => 1) ∨ ∃ x, A.index.get i ≤ x ∧ x < A.index.get (i + 1) ∧ k = x ∧ g = w i x)) := by
  have his := h.isz
  have hvs := h.vsz
  refine Ok_loop_upd (fun i k g => (k = i ∧ g = fun _ => 1) ∨ ∃ x, A.index.get i ≤ x ∧ x < A.index.get (i + 1) ∧
    k = x ∧ g = w i x) ?_ ?_
  · rintro i i' k g g' - h1 - h2 (⟨rfl, -⟩ | ⟨x, a1, a2, rfl, -⟩) (⟨h3, -⟩ | ⟨y, b1, b2, h3, -⟩)
    · exact h3
    · have := h.rangeA h2 b1 b2; omega
    · have := h.rangeA h1 a1 a2; omega
    · subst h3; exact h.row_unique h1 h2 a1 a2 b1 b2
  · intro i z _ hi hz
    simp only [Ok_bind, Ok_rd, Ok_wr]
    refine ⟨by omega, by omega, by omega, ?_⟩
    refine (Ok_loop_upd1 (fun x => x) (w i) (fun _ _ _ _ _ _ h => h) fun x z' x1 x2 hz' =>
      hf i x z' hi x1 x2 (by rw [hz']; exact hz)).mono ?_
    intro z' hz'
    refine ⟨hz'.1, ?_, fun k hk => ?_⟩
    · rintro k g (⟨rfl, rfl⟩ | ⟨x, x1, x2, rfl, rfl⟩)
      · rw [hz'.2.2 k, Arr.set_get_self]
        rintro g ⟨x, x1, x2, rfl, -⟩
        have := h.rangeA hi x1 x2; omega
      · have := h.rangeA hi x1 x2
        rw [hz'.2.1 k _ ⟨k, x1, x2, rfl, rfl⟩, Arr.set_get_ne _ _ (by omega)]
    · rw [hz'.2.2 k fun g ⟨x, x1, x2, h1, h2⟩ => hk g (Or.inr ⟨x, x1, x2, h1, h2⟩), Arr.set_get_ne]
      rintro rfl
      exact hk _ (Or.inl ⟨rfl, rfl⟩)

theorem Msr.WF.value {A : Msr R} (h : A.WF) {v : Arr R} (hv : v.size = A.value.size) :
    ({ A with value := v } : Msr R).WF :=
  ⟨h.isz, by rw [hv]; exact h.vsz, h.zero, h.mono, h.last, h.idx⟩

/-- `lis_matrix_scale_msr`: off-diagonal elements `A(i,j) d_i`, diagonal elements 1 (elements stored for `(i,i)` among
the off-diagonal ones are scaled too) -/
theorem scaleMsr_spec [NonAssocSemiring R] {A : Msr R} (h : A.WF) (d : Arr R) (hd : A.n ≤ d.size) :
    Ok (scaleMsr A d) fun B => B.WF ∧ B.n = A.n ∧ B.nnz = A.nnz ∧ ∀ i j, i < A.n →
      B.entry i j + (if i = j then A.value.get i * d.get i else 0) =
        A.entry i j * d.get i + if i = j then 1 else 0 := by
  unfold scaleMsr
  rw [Ok_bind]
  refine (msrScale_upd h (fun i _ t => t * d.get i) (f := fun i j value => do
      let w ← d.rd i
      mulCell value j w) ?_).mono fun v hv => ?_
  · intro i x z hi x1 x2 hz
    have := h.rangeA hi x1 x2
    have := h.vsz
    simp only [Ok_bind, Ok_rd, Ok_mulCell]
    exact ⟨by omega, by omega, trivial⟩
  · rw [Ok_pure]
    refine ⟨h.value hv.1, rfl, rfl, fun i j hi => ?_⟩
    unfold Msr.entry
    simp only
    have hs : (∑ k ∈ Ico (A.index.get i) (A.index.get (i + 1)), if A.index.get k = j then v.get k else 0) =
        (∑ k ∈ Ico (A.index.get i) (A.index.get (i + 1)), if A.index.get k = j then A.value.get k else 0) *
          d.get i := by
      rw [sum_mul]
      refine sum_congr rfl fun k hk => ?_
      rw [mem_Ico] at hk
      rw [hv.2.1 k _ ⟨i, by omega, hi, Or.inr ⟨k, hk.1, hk.2, rfl, rfl⟩⟩]
      split
      · rfl
      · rw [zero_mul]
    rw [hs, hv.2.1 i _ ⟨i, by omega, hi, Or.inl ⟨rfl, rfl⟩⟩, add_mul]
    split
    · abel
    · simp

theorem scaleSymmMsr_spec [CommSemiring R] {A : Msr R} (h : A.WF) (d : Arr R) (hd : A.n ≤ d.size) :
    Ok (scaleSymmMsr A d) fun B => B.WF ∧ B.n = A.n ∧ B.nnz = A.nnz ∧ ∀ i j, i < A.n →
      B.entry i j + (if i = j then A.value.get i * d.get i * d.get j else 0) =
        A.entry i j * d.get i * d.get j + if i = j then 1 else 0 := by
  unfold scaleSymmMsr
  rw [Ok_bind]
  refine (msrScale_upd h (fun i x t => t * d.get i * d.get (A.index.get x)) (f := fun i j value => do
      let v ← value.rd j
      let di ← d.rd i
      let c ← A.index.rd j
      let dc ← d.rd c
      value.wr j (v * di * dc)) ?_).mono fun v hv => ?_
  · intro i x z hi x1 x2 hz
    have h1 := h.rangeA hi x1 x2
    have := h.vsz
    have := h.isz
    have := h.idx x h1.1 h1.2
    simp only [Ok_bind, Ok_rd, Ok_wr]
    exact ⟨by omega, by omega, by omega, by omega, by omega, trivial⟩
  · rw [Ok_pure]
    refine ⟨h.value hv.1, rfl, rfl, fun i j hi => ?_⟩
    unfold Msr.entry
    simp only
    have hs : (∑ k ∈ Ico (A.index.get i) (A.index.get (i + 1)), if A.index.get k = j then v.get k else 0) =
        (∑ k ∈ Ico (A.index.get i) (A.index.get (i + 1)), if A.index.get k = j then A.value.get k else 0) *
          d.get i * d.get j := by
      rw [sum_mul, sum_mul]
      refine sum_congr rfl fun k hk => ?_
      rw [mem_Ico] at hk
      rw [hv.2.1 k _ ⟨i, by omega, hi, Or.inr ⟨k, hk.1, hk.2, rfl, rfl⟩⟩]
      split
      · next h => rw [h]
      · rw [zero_mul, zero_mul]
    rw [hs, hv.2.1 i _ ⟨i, by omega, hi, Or.inl ⟨rfl, rfl⟩⟩, add_mul, add_mul]
    split
    · abel
    · simp

/-! ### DIA -/

theorem scaleDia_spec [NonUnitalNonAssocSemiring R] {A : Dia R} (h : A.WF) (d : Arr R) (hd : A.n ≤ d.size) :
    Ok (scaleDia A d) fun B => B.WF ∧ B.n = A.n ∧
      ∀ i j, i < A.n → j < A.n → B.entry i j = A.entry i j * d.get i := by
  have his := h.isz
  have hvs := h.vsz
  unfold scaleDia
  rw [Ok_bind]
  refine (Ok_loop_upd (fun e k g => ∃ i, (max 0 (-A.index.get e)).toNat ≤ i ∧
    i < (min (A.n : ℤ) (A.n - A.index.get e)).toNat ∧ k = e * A.n + i ∧ g = fun t => t * d.get i) ?_ ?_).mono
    fun v hv => ?_
  · rintro e e' k g g' - h1 - h2 ⟨i, a1, a2, rfl, -⟩ ⟨i', b1, b2, h3, -⟩
    exact (flat_inj (by omega) (by omega) h3).1
  · intro e z _ he hz
    simp only [Ok_bind, Ok_rd]
    refine ⟨by omega, ?_⟩
    refine Ok_loop_upd1 (fun i => e * A.n + i) (fun i t => t * d.get i) (fun _ _ _ _ _ _ h => by simpa using h) ?_
    intro i z' i1 i2 hz'
    have := flat_lt he (j := i) (m := A.n) (by omega)
    simp only [Ok_bind, Ok_rd, Ok_mulCell]
    exact ⟨by omega, by omega, trivial⟩
  · rw [Ok_pure]
    refine ⟨⟨h.isz, by rw [hv.1]; exact h.vsz⟩, rfl, fun i j hi hj => ?_⟩
    unfold Dia.entry
    rw [sum_mul]
    refine sum_congr rfl fun e he => ?_
    rw [mem_range] at he
    simp only
    split
    · next h => rw [hv.2.1 (e * A.n + i) _ ⟨e, by omega, he, i, by omega, by omega, rfl, rfl⟩]
    · rw [zero_mul]

theorem scaleSymmDia_spec [NonUnitalSemiring R] {A : Dia R} (h : A.WF) (d : Arr R) (hd : A.n ≤ d.size) :
    Ok (scaleSymmDia A d) fun B => B.WF ∧ B.n = A.n ∧
      ∀ i j, i < A.n → j < A.n → B.entry i j = A.entry i j * d.get i * d.get j := by
  have his := h.isz
  have hvs := h.vsz
  unfold scaleSymmDia
  rw [Ok_bind]
  refine (Ok_loop_upd (fun e k g => ∃ i, (max 0 (-A.index.get e)).toNat ≤ i ∧
    i < (min (A.n : ℤ) (A.n - A.index.get e)).toNat ∧ k = e * A.n + i ∧
      g = fun t => t * (d.get i * d.get ((i : ℤ) + A.index.get e).toNat)) ?_ ?_).mono
    fun v hv => ?_
  · rintro e e' k g g' - h1 - h2 ⟨i, a1, a2, rfl, -⟩ ⟨i', b1, b2, h3, -⟩
    exact (flat_inj (by omega) (by omega) h3).1
  · intro e z _ he hz
    simp only [Ok_bind, Ok_rd]
    refine ⟨by omega, ?_⟩
    refine Ok_loop_upd1 (fun i => e * A.n + i)
      (fun i t => t * (d.get i * d.get ((i : ℤ) + A.index.get e).toNat)) (fun _ _ _ _ _ _ h => by simpa using h) ?_
    intro i z' i1 i2 hz'
    have := flat_lt he (j := i) (m := A.n) (by omega)
    simp only [Ok_bind, Ok_rd, Ok_rdI, Ok_mulCell]
    exact ⟨by omega, by omega, by omega, by omega, by omega, trivial⟩
  · rw [Ok_pure]
    refine ⟨⟨h.isz, by rw [hv.1]; exact h.vsz⟩, rfl, fun i j hi hj => ?_⟩
    unfold Dia.entry
    rw [mul_assoc, sum_mul]
    refine sum_congr rfl fun e he => ?_
    rw [mem_range] at he
    simp only
    split
    · next h =>
      rw [hv.2.1 (e * A.n + i) _ ⟨e, by omega, he, i, by omega, by omega, rfl, rfl⟩,
        show ((i : ℤ) + A.index.get e).toNat = j by omega]
    · rw [zero_mul]

/-! ### ELL -/

theorem scaleEll_upd [Mul R] {A : Ell R} {f : ℕ → ℕ → Arr R → Option (Arr R)}
    (w : ℕ → ℕ → R → R)
    (hf : ∀ j i z, j < A.maxnzr → i < A.n → z.size = A.value.size →
      Ok (f j i z) fun z' => z' = z.set (j * A.n + i) (w j i (z.get (j * A.n + i)))) :
    Ok (loop 0 A.maxnzr A.value fun j value => loop 0 A.n value fun i value => f j i value)
      (Upd A.value fun k g => ∃ j, 0 ≤ j ∧ j < A.maxnzr ∧ ∃ i, 0 ≤ i ∧ i < A.n ∧ k = j * A.n + i ∧ g = w j i) := by
  refine Ok_loop_upd (fun j k g => ∃ i, 0 ≤ i ∧ i < A.n ∧ k = j * A.n + i ∧ g = w j i) ?_ ?_
  · rintro e e' k g g' - h1 - h2 ⟨i, a1, a2, rfl, -⟩ ⟨i', b1, b2, h3, -⟩
    exact (flat_inj (by omega) (by omega) h3).1
  · intro j z _ hj hz
    exact Ok_loop_upd1 (fun i => j * A.n + i) (w j) (fun _ _ _ _ _ _ h => by simpa using h)
      fun i z' _ hi hz' => hf j i z' hj hi (by omega)

theorem scaleEll_spec [NonUnitalNonAssocSemiring R] {A : Ell R} (h : A.WF) (d : Arr R) (hd : A.n ≤ d.size) :
    Ok (scaleEll A d) fun B => B.WF ∧ B.n = A.n ∧ ∀ i j, i < A.n → B.entry i j = A.entry i j * d.get i := by
  have hvs := h.vsz
  unfold scaleEll
  rw [Ok_bind]
  refine (scaleEll_upd (A := A) (fun _ i t => t * d.get i) ?_).mono fun v hv => ?_
  · intro j i z hj hi hz
    have := flat_lt hj hi
    have := Nat.mul_comm A.n A.maxnzr
    simp only [Ok_bind, Ok_rd, Ok_mulCell]
    exact ⟨by omega, by omega, trivial⟩
  · rw [Ok_pure]
    refine ⟨⟨h.isz, by rw [hv.1]; exact h.vsz, h.idx⟩, rfl, fun i j hi => ?_⟩
    unfold Ell.entry
    rw [sum_mul]
    refine sum_congr rfl fun e he => ?_
    rw [mem_range] at he
    simp only
    rw [hv.2.1 (e * A.n + i) _ ⟨e, by omega, he, i, by omega, hi, rfl, rfl⟩]
    split
    · rfl
    · rw [zero_mul]

theorem scaleSymmEll_spec [NonUnitalSemiring R] {A : Ell R} (h : A.WF) (d : Arr R) (hd : A.n ≤ d.size) :
    Ok (scaleSymmEll A d) fun B => B.WF ∧ B.n = A.n ∧
      ∀ i j, i < A.n → B.entry i j = A.entry i j * d.get i * d.get j := by
  have hvs := h.vsz
  have his := h.isz
  unfold scaleSymmEll
  rw [Ok_bind]
  refine (scaleEll_upd (A := A) (fun j i t => t * (d.get i * d.get (A.index.get (j * A.n + i)))) ?_).mono
    fun v hv => ?_
  · intro j i z hj hi hz
    have := flat_lt hj hi
    have := Nat.mul_comm A.n A.maxnzr
    have := h.idx j hj i hi
    simp only [Ok_bind, Ok_rd, Ok_mulCell]
    exact ⟨by omega, by omega, by omega, by omega, trivial⟩
  · rw [Ok_pure]
    refine ⟨⟨h.isz, by rw [hv.1]; exact h.vsz, h.idx⟩, rfl, fun i j hi => ?_⟩
    unfold Ell.entry
    rw [mul_assoc, sum_mul]
    refine sum_congr rfl fun e he => ?_
    rw [mem_range] at he
    simp only
    rw [hv.2.1 (e * A.n + i) _ ⟨e, by omega, he, i, by omega, hi, rfl, rfl⟩]
    split
    · next h => rw [h]
    · rw [zero_mul]

/-! ### DNS -/

theorem scaleDns_upd [Mul R] {A : Dns R} {f : ℕ → ℕ → Arr R → Option (Arr R)}
    (w : ℕ → ℕ → R → R)
    (hf : ∀ j i z, j < A.np → i < A.n → z.size = A.value.size →
      Ok (f j i z) fun z' => z' = z.set (j * A.n + i) (w j i (z.get (j * A.n + i)))) :
    Ok (loop 0 A.np A.value fun j value => loop 0 A.n value fun i value => f j i value)
      (Upd A.value fun k g => ∃ j, 0 ≤ j ∧ j < A.np ∧ ∃ i, 0 ≤ i ∧ i < A.n ∧ k = j * A.n + i ∧ g = w j i) := by
  refine Ok_loop_upd (fun j k g => ∃ i, 0 ≤ i ∧ i < A.n ∧ k = j * A.n + i ∧ g = w j i) ?_ ?_
  · rintro e e' k g g' - h1 - h2 ⟨i, a1, a2, rfl, -⟩ ⟨i', b1, b2, h3, -⟩
    exact (flat_inj (by omega) (by omega) h3).1
  · intro j z _ hj hz
    exact Ok_loop_upd1 (fun i => j * A.n + i) (w j) (fun _ _ _ _ _ _ h => by simpa using h)
      fun i z' _ hi hz' => hf j i z' hj hi (by omega)

theorem scaleDns_spec [Mul R] {A : Dns R} (h : A.WF) (d : Arr R) (hd : A.n ≤ d.size) :
    Ok (scaleDns A d) fun B => B.WF ∧ B.n = A.n ∧ B.np = A.np ∧
      ∀ i j, i < A.n → j < A.np → B.entry i j = A.entry i j * d.get i := by
  have hvs := h.vsz
  unfold scaleDns
  rw [Ok_bind]
  refine (scaleDns_upd (A := A) (fun _ i t => t * d.get i) ?_).mono fun v hv => ?_
  · intro j i z hj hi hz
    have := flat_lt hj hi
    simp only [Ok_bind, Ok_rd, Ok_mulCell]
    exact ⟨by omega, by omega, trivial⟩
  · rw [Ok_pure]
    refine ⟨⟨by rw [hv.1]; exact h.vsz⟩, rfl, rfl, fun i j hi hj => ?_⟩
    unfold Dns.entry
    simp only
    rw [hv.2.1 (j * A.n + i) _ ⟨j, by omega, hj, i, by omega, hi, rfl, rfl⟩]

theorem scaleSymmDns_spec [Semigroup R] {A : Dns R} (h : A.WF) (d : Arr R) (hd : A.n ≤ d.size)
    (hnp : A.np ≤ d.size) :
    Ok (scaleSymmDns A d) fun B => B.WF ∧ B.n = A.n ∧ B.np = A.np ∧
      ∀ i j, i < A.n → j < A.np → B.entry i j = A.entry i j * d.get i * d.get j := by
  have hvs := h.vsz
  unfold scaleSymmDns
  rw [Ok_bind]
  refine (scaleDns_upd (A := A) (fun j i t => t * (d.get i * d.get j)) ?_).mono fun v hv => ?_
  · intro j i z hj hi hz
    have := flat_lt hj hi
    simp only [Ok_bind, Ok_rd, Ok_mulCell]
    exact ⟨by omega, by omega, by omega, trivial⟩
  · rw [Ok_pure]
    refine ⟨⟨by rw [hv.1]; exact h.vsz⟩, rfl, rfl, fun i j hi hj => ?_⟩
    unfold Dns.entry
    simp only
    rw [hv.2.1 (j * A.n + i) _ ⟨j, by omega, hj, i, by omega, hi, rfl, rfl⟩, mul_assoc]

end Lis
