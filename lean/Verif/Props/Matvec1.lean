import Verif.Lemmas.Matvec1
import Verif.Spec.Mul
import Mathlib.Data.Complex.Basic
import Mathlib.Tactic.NormNum

/-!
# C05, C06, C07 — `lis_matvec` / `lis_matvech` for CSR, CSC, COO, DNS, MSR

`Ok (kernel A x y) P`: the kernel is free of out-of-bounds accesses, terminates, and its result
satisfies `P`.  `y` is the previous content of the output vector: it does not influence the result.
-/

namespace Lis
open Finset
variable {R : Type}

section mul
variable [NonUnitalNonAssocSemiring R]

/-- C05 (unsplit) -/
theorem matvecCsr_spec (A : Csr R) (h : A.WF) (x y : Arr R) (hx : A.np ≤ x.size)
    (hy : A.n ≤ y.size) :
    Ok (matvecCsr A x y) fun y' => y'.size = y.size ∧
      IsMul A.n A.np A.entry x.get y'.get ∧ SameFrom A.n y.get y'.get := by
  unfold matvecCsr
  refine Ok_loop_fill (fun i => ∑ j ∈ range A.np, A.entry i j * x.get j) ?_ ?_
  · intro i y' _ hi hsz _ _
    have := h.ptr.size
    simp only [Ok_bind, Ok_rd, Ok_wr]
    refine ⟨by omega, by omega, Ok_accRow (fun k _ hk => h.access hx hi hk) ⟨by omega, ?_⟩⟩
    rw [zero_add, A.row_sum h _ hi]
  · intro y' h1 h2 h3
    exact ⟨h1, fun i hi => h2 i (by omega) hi, fun i hi => h3 i (by omega)⟩

/-- C05 (split: `A->is_splited`) -/
theorem matvecSplitCsr_spec (A : SplitCsr R) (h : A.WF) (x y : Arr R) (hx : A.np ≤ x.size)
    (hy : A.n ≤ y.size) :
    Ok (matvecSplitCsr A x y) fun y' => y'.size = y.size ∧
      IsMul A.n A.np A.entry x.get y'.get ∧ SameFrom A.n y.get y'.get := by
  unfold matvecSplitCsr
  have hl := h.lwf; have hu := h.uwf
  have e1 := h.ln; have e2 := h.lnp; have e3 := h.un; have e4 := h.unp
  have := h.dsz; have := h.le
  refine Ok_loop_fill (fun i => ∑ j ∈ range A.np, A.entry i j * x.get j) ?_ ?_
  · intro i y' _ hi hsz _ _
    have := hl.ptr.size; have := hu.ptr.size
    simp only [Ok_bind, Ok_rd, Ok_wr]
    refine ⟨by omega, by omega, by omega, by omega, Ok_accRow
      (fun k _ hk => hl.access (by omega) (by omega) hk) ⟨by omega, by omega, Ok_accRow
      (fun k _ hk => hu.access (by omega) (by omega) hk) ⟨by omega, ?_⟩⟩⟩
    rw [A.L.row_sum hl _ (by omega), A.U.row_sum hu _ (by omega), e2, e4]
    congr 1
    simp only [SplitCsr.entry, add_mul, sum_add_distrib, ite_mul, zero_mul, sum_ite_eq]
    rw [if_pos (by simp; omega)]
  · intro y' h1 h2 h3
    exact ⟨h1, fun i hi => h2 i (by omega) hi, fun i hi => h3 i (by omega)⟩

/-- C06 CSC (unsplit) -/
theorem matvecCsc_spec (A : Csc R) (h : A.WF) (x y : Arr R) (hx : A.np ≤ x.size)
    (hy : A.n ≤ y.size) :
    Ok (matvecCsc A x y) fun y' => y'.size = y.size ∧
      IsMul A.n A.np A.entry x.get y'.get ∧ SameFrom A.n y.get y'.get := by
  unfold matvecCsc
  simp only [Ok_bind]
  refine Ok_zeroFill hy fun y1 hs1 hz => ?_
  refine Ok_loop_add (fun j i => A.entry i j * x.get j) ?_ ?_
  · intro j y2 _ hj hs2
    have := h.ptr.size
    simp only [Ok_bind, Ok_rd]
    refine ⟨by omega, by omega, by omega, Ok_scatterCol
      (fun k _ hk => h.access (by omega) hj hk) fun y3 hs3 hy3 => ⟨by omega, fun i => ?_⟩⟩
    rw [hy3, Csc.entry]; simp only [id, ite_sum_mul]
  · intro y2 hs2 hy2
    refine ⟨by omega, fun i hi => ?_, fun i hi => ?_⟩
    · rw [hy2, hz, if_pos hi, zero_add, sum_Ico_zero]
    · rw [hy2, hz, if_neg (by omega), sum_eq_zero, add_zero]
      intro j hj
      rw [mem_Ico] at hj
      rw [Csc.entry, sum_eq_zero, zero_mul]
      intro k hk; rw [mem_Ico] at hk
      have := h.idx k (h.ptr.lt_nnz hj.2 hk.2)
      rw [if_neg (by omega)]

/-- C06 CSC (split) -/
theorem matvecSplitCsc_spec (A : SplitCsc R) (h : A.WF) (x y : Arr R) (hx : A.np ≤ x.size)
    (hy : A.n ≤ y.size) :
    Ok (matvecSplitCsc A x y) fun y' => y'.size = y.size ∧
      IsMul A.n A.np A.entry x.get y'.get ∧ SameFrom A.n y.get y'.get := by
  unfold matvecSplitCsc
  have hl := h.lwf; have hu := h.uwf
  have e1 := h.ln; have e2 := h.lnp; have e3 := h.un; have e4 := h.unp
  have := h.dsz; have := h.le
  simp only [Ok_bind]
  have hd := Ok_diagFill (c := id) (Q := fun y1 => y1.size = y.size ∧
    (∀ j, y1.get j = if j < A.n then A.D.get j * x.get j else y.get j))
    (n := A.n) (d := A.D) (x := x) (y := y) h.dsz (by omega) hy (fun y' a b => ⟨a, b⟩)
  simp only [id] at hd
  refine hd.mono ?_
  rintro y1 ⟨hs1, hz⟩
  refine Ok_loop_add (fun j i => A.L.entry i j * x.get j + A.U.entry i j * x.get j) ?_ ?_
  · intro j y2 _ hj hs2
    have := hl.ptr.size; have := hu.ptr.size
    simp only [Ok_bind, Ok_rd]
    refine ⟨by omega, by omega, by omega, Ok_scatterCol
      (fun k _ hk => hl.access (by omega) (by omega) hk) fun y3 hs3 hy3 => ⟨by omega, by omega,
        by omega, Ok_scatterCol
      (fun k _ hk => hu.access (by omega) (by omega) hk) fun y4 hs4 hy4 => ⟨by omega, fun i => ?_⟩⟩⟩
    rw [hy4, hy3, Csc.entry, Csc.entry]; simp only [id, ite_sum_mul, add_assoc]
  · intro y2 hs2 hy2
    refine ⟨by omega, fun i hi => ?_, fun i hi => ?_⟩
    · rw [hy2, hz, if_pos hi, sum_Ico_zero]
      simp only [SplitCsc.entry, add_mul, sum_add_distrib, ite_mul, zero_mul, sum_ite_eq]
      rw [if_pos (by simp; omega), add_assoc]
    · rw [hy2, hz, if_neg (by omega), sum_eq_zero, add_zero]
      intro j hj; rw [mem_Ico] at hj
      rw [A.L.entry_eq_zero hl (by omega) (by omega), A.U.entry_eq_zero hu (by omega) (by omega)]
      simp

/-- C06 COO (unsplit) -/
theorem matvecCoo_spec (A : Coo R) (h : A.WF) (x y : Arr R) (hx : A.n ≤ x.size)
    (hy : A.n ≤ y.size) :
    Ok (matvecCoo A x y) fun y' => y'.size = y.size ∧
      IsMul A.n A.n A.entry x.get y'.get ∧ SameFrom A.n y.get y'.get := by
  unfold matvecCoo
  simp only [Ok_bind]
  have := h.rsz; have := h.csz; have := h.vsz
  refine Ok_zeroFill hy fun y1 hs1 hz => ?_
  refine Ok_scatterCoo (fun k hk => ?_) fun y2 hs2 hy2 => ⟨by omega, fun i hi => ?_, fun i hi => ?_⟩
  · have := h.row k hk; have := h.col k hk; omega
  · rw [hy2, hz, if_pos hi, zero_add]
    simp only [Coo.entry, id, sum_mul, ite_mul, zero_mul]
    rw [sum_comm]
    refine sum_congr rfl fun k hk => ?_
    have := h.col k (by simpa using hk)
    by_cases hr : A.row.get k = i
    · simp [hr, this]
    · simp [hr]
  · rw [hy2, hz, if_neg (by omega), sum_eq_zero, add_zero]
    intro k hk; have := h.row k (by simpa using hk); rw [if_neg (by omega)]

/-- C06 COO (split) -/
theorem matvecSplitCoo_spec (A : SplitCoo R) (h : A.WF) (x y : Arr R) (hx : A.n ≤ x.size)
    (hy : A.n ≤ y.size) :
    Ok (matvecSplitCoo A x y) fun y' => y'.size = y.size ∧
      IsMul A.n A.n A.entry x.get y'.get ∧ SameFrom A.n y.get y'.get := by
  unfold matvecSplitCoo
  have hl := h.lwf; have hu := h.uwf
  have e1 := h.ln; have e3 := h.un
  simp only [Ok_bind]
  have hd := Ok_diagFill (c := id) (Q := fun y1 => y1.size = y.size ∧
    (∀ j, y1.get j = if j < A.n then A.D.get j * x.get j else y.get j))
    (n := A.n) (d := A.D) (x := x) (y := y) h.dsz (by omega) hy (fun y' a b => ⟨a, b⟩)
  simp only [id] at hd
  refine hd.mono ?_
  rintro y1 ⟨hs1, hz⟩
  have := hl.rsz; have := hl.csz; have := hl.vsz
  have := hu.rsz; have := hu.csz; have := hu.vsz
  have key : ∀ (B : Coo R), B.WF → B.n = A.n → ∀ i,
      (∑ k ∈ range B.nnz, if B.row.get k = i then id (B.value.get k) * x.get (B.col.get k) else 0) =
      ∑ j ∈ range A.n, B.entry i j * x.get j := by
    intro B hB hn i
    simp only [Coo.entry, id, sum_mul, ite_mul, zero_mul]
    rw [sum_comm]
    refine sum_congr rfl fun k hk => ?_
    have := hB.col k (by simpa using hk)
    by_cases hr : B.row.get k = i
    · simp [hr, ← hn, this]
    · simp [hr]
  refine Ok_scatterCoo (fun k hk => ?_) fun y2 hs2 hy2 => ?_
  · have := hl.row k hk; have := hl.col k hk; omega
  refine Ok_scatterCoo (fun k hk => ?_) fun y3 hs3 hy3 => ⟨by omega, fun i hi => ?_, fun i hi => ?_⟩
  · have := hu.row k hk; have := hu.col k hk; omega
  · rw [hy3, hy2, hz, if_pos hi, key _ hl e1, key _ hu e3]
    simp only [SplitCoo.entry, add_mul, sum_add_distrib, ite_mul, zero_mul, sum_ite_eq]
    rw [if_pos (by simpa using hi)]
  · rw [hy3, hy2, hz, if_neg (by omega), sum_eq_zero, sum_eq_zero, add_zero, add_zero]
    · intro k hk; have := hu.row k (by simpa using hk); rw [if_neg (by omega)]
    · intro k hk; have := hl.row k (by simpa using hk); rw [if_neg (by omega)]

/-- C06 DNS -/
theorem matvecDns_spec (A : Dns R) (h : A.WF) (x y : Arr R) (hx : A.np ≤ x.size)
    (hy : A.n ≤ y.size) :
    Ok (matvecDns A x y) fun y' => y'.size = y.size ∧
      IsMul A.n A.np A.entry x.get y'.get ∧ SameFrom A.n y.get y'.get := by
  unfold matvecDns
  simp only [Ok_bind]
  refine Ok_zeroFill hy fun y1 hs1 hz => ?_
  refine Ok_loop_add (fun j i => if i < A.n then A.entry i j * x.get j else 0) ?_ ?_
  · intro j y2 _ hj hs2
    refine Ok_loop_add (fun i i' => if i = i' then A.entry i j * x.get j else 0) ?_ ?_
    · intro i y3 _ hi hs3
      have hv := h.vsz
      have : (j + 1) * A.n ≤ A.np * A.n := Nat.mul_le_mul_right _ hj
      rw [Nat.add_mul] at this
      simp only [Ok_bind, Ok_rd, Ok_wr]
      refine ⟨by omega, by omega, by omega, by omega, by simpa using hs3, fun i' => set_add_get _ _ _ _⟩
    · intro y3 hs3 hy3
      refine ⟨by omega, fun i => ?_⟩
      rw [hy3, sum_Ico_zero, sum_ite_eq' (range A.n) i]; simp
  · intro y2 hs2 hy2
    refine ⟨by omega, fun i hi => ?_, fun i hi => ?_⟩
    · rw [hy2, hz, if_pos hi, zero_add, sum_Ico_zero]; simp [hi]
    · have : ¬ i < A.n := by omega
      rw [hy2, hz]; simp [this]

/-- C06 MSR -/
theorem matvecMsr_spec (A : Msr R) (h : A.WF) (x y : Arr R) (hx : A.n ≤ x.size)
    (hy : A.n ≤ y.size) :
    Ok (matvecMsr A x y) fun y' => y'.size = y.size ∧
      IsMul A.n A.n A.entry x.get y'.get ∧ SameFrom A.n y.get y'.get := by
  unfold matvecMsr
  have := h.isz; have := h.vsz
  refine Ok_loop_fill (fun i => ∑ j ∈ Finset.range A.n, A.entry i j * x.get j) ?_ ?_
  · intro i y' _ hi hsz _ _
    have hr := h.range hi
    simp only [Ok_bind, Ok_rd, Ok_wr]
    refine ⟨by omega, by omega, by omega, by omega, Ok_accRow (fun k hk1 hk2 => ?_) ⟨by omega, ?_⟩⟩
    · have := h.idx k (by omega) (by omega); omega
    · rw [A.row_sum h x.get hi]
  · intro y' h1 h2 h3
    exact ⟨h1, fun i hi => h2 i (by omega) hi, fun i hi => h3 i (by omega)⟩

end mul

section mulH
variable [NonUnitalNonAssocSemiring R] [StarRing R]

/-- C07 CSR (unsplit) -/
theorem matvechCsr_spec (A : Csr R) (h : A.WF) (x y : Arr R) (hx : A.n ≤ x.size)
    (hy : A.np ≤ y.size) :
    Ok (matvechCsr A x y) fun y' => y'.size = y.size ∧
      IsMulH A.n A.np A.entry x.get y'.get ∧ SameFrom A.np y.get y'.get := by
  unfold matvechCsr
  simp only [Ok_bind]
  refine Ok_zeroFill hy fun y1 hs1 hz => ?_
  refine Ok_loop_add (fun i j => star (A.entry i j) * x.get i) ?_ ?_
  · intro i y2 _ hi hs2
    have := h.ptr.size
    simp only [Ok_bind, Ok_rd]
    refine ⟨by omega, by omega, by omega, Ok_scatterCol
      (fun k _ hk => h.access (by omega) hi hk) fun y3 hs3 hy3 => ⟨by omega, fun j => ?_⟩⟩
    rw [hy3, Csr.entry]; simp only [ite_sum_star_mul]
  · intro y2 hs2 hy2
    refine ⟨by omega, fun j hj => ?_, fun j hj => ?_⟩
    · rw [hy2, hz, if_pos hj, zero_add, sum_Ico_zero]
    · rw [hy2, hz, if_neg (by omega), sum_eq_zero, add_zero]
      intro i hi
      rw [mem_Ico] at hi
      rw [A.entry_eq_zero h hi.2 hj, star_zero, zero_mul]

/-- C07 CSR (split), for a matrix without halo columns (`np = n`: the serial library).  For
`np > n` see `matvechSplitCsr_oob`. -/
theorem matvechSplitCsr_spec (A : SplitCsr R) (h : A.WF) (hn : A.np = A.n) (x y : Arr R)
    (hx : A.n ≤ x.size) (hy : A.np ≤ y.size) :
    Ok (matvechSplitCsr A x y) fun y' => y'.size = y.size ∧
      IsMulH A.n A.np A.entry x.get y'.get ∧ SameFrom A.np y.get y'.get := by
  unfold matvechSplitCsr
  have hl := h.lwf; have hu := h.uwf
  have e1 := h.ln; have e2 := h.lnp; have e3 := h.un; have e4 := h.unp
  have := h.dsz
  simp only [Ok_bind]
  have hd := Ok_diagFill (c := star) (Q := fun y1 => y1.size = y.size ∧
    (∀ j, y1.get j = if j < A.np then star (A.D.get j) * x.get j else y.get j))
    (n := A.np) (d := A.D) (x := x) (y := y) (by omega) (by omega) hy (fun y' a b => ⟨a, b⟩)
  refine hd.mono ?_
  rintro y1 ⟨hs1, hz⟩
  refine Ok_loop_add (fun i j => star (A.L.entry i j) * x.get i) ?_ ?_
  · intro i y2 _ hi hs2
    have := hl.ptr.size
    simp only [Ok_bind, Ok_rd]
    refine ⟨by omega, by omega, by omega, Ok_scatterCol
      (fun k _ hk => hl.access (by omega) (by omega) hk) fun y3 hs3 hy3 => ⟨by omega, fun j => ?_⟩⟩
    rw [hy3, Csr.entry]; simp only [ite_sum_star_mul]
  intro y2 hs2 hy2
  refine Ok_loop_add (fun i j => star (A.U.entry i j) * x.get i) ?_ ?_
  · intro i y2 _ hi hs2
    have := hu.ptr.size
    simp only [Ok_bind, Ok_rd]
    refine ⟨by omega, by omega, by omega, Ok_scatterCol
      (fun k _ hk => hu.access (by omega) (by omega) hk) fun y3 hs3 hy3 => ⟨by omega, fun j => ?_⟩⟩
    rw [hy3, Csr.entry]; simp only [ite_sum_star_mul]
  · intro y3 hs3 hy3
    refine ⟨by omega, fun j hj => ?_, fun j hj => ?_⟩
    · rw [hy3, hy2, hz, if_pos hj, sum_Ico_zero, sum_Ico_zero]
      simp only [SplitCsr.entry, star_add, add_mul, sum_add_distrib, apply_ite star, star_zero,
        ite_mul, zero_mul, sum_ite_eq']
      rw [if_pos (by simp; omega)]
    · rw [hy3, hy2, hz, if_neg (by omega), sum_eq_zero, sum_eq_zero, add_zero, add_zero]
      · intro i hi; rw [mem_Ico] at hi
        rw [A.U.entry_eq_zero hu (by omega) (by omega), star_zero, zero_mul]
      · intro i hi; rw [mem_Ico] at hi
        rw [A.L.entry_eq_zero hl (by omega) (by omega), star_zero, zero_mul]

/-- C07, a defect of the code: the split CSR branch of `lis_matvech` initialises `y[i]` from
`D[i]` for `i < np` although `D` has `n` elements; whenever `np > n` (a distributed matrix with
halo columns) the call reads out of bounds. -/
theorem matvechSplitCsr_oob (A : SplitCsr R) (hD : A.D.size = A.n) (hn : A.n < A.np)
    (x y : Arr R) : matvechSplitCsr A x y = none := by
  unfold matvechSplitCsr
  have : loop 0 A.np y (fun i y => do
    let d ← A.D.rd i
    let xi ← x.rd i
    y.wr i (star d * xi)) = none := by
    refine loop_none (i := A.n) (by omega) hn fun s => ?_
    simp [Arr.rd, hD]
  rw [this]; rfl

/-- C07 CSC (unsplit) -/
theorem matvechCsc_spec (A : Csc R) (h : A.WF) (x y : Arr R) (hx : A.n ≤ x.size)
    (hy : A.np ≤ y.size) :
    Ok (matvechCsc A x y) fun y' => y'.size = y.size ∧
      IsMulH A.n A.np A.entry x.get y'.get ∧ SameFrom A.np y.get y'.get := by
  unfold matvechCsc
  refine Ok_loop_fill (fun j => ∑ i ∈ range A.n, star (A.entry i j) * x.get i) ?_ ?_
  · intro j y' _ hj hsz _ _
    have := h.ptr.size
    simp only [Ok_bind, Ok_rd, Ok_wr]
    refine ⟨by omega, by omega, Ok_accRowH (fun k _ hk => h.access hx hj hk) ⟨by omega, ?_⟩⟩
    rw [zero_add, A.col_sumH h _ hj]
  · intro y' h1 h2 h3
    exact ⟨h1, fun i hi => h2 i (by omega) hi, fun i hi => h3 i (by omega)⟩

/-- C07 CSC (split) -/
theorem matvechSplitCsc_spec (A : SplitCsc R) (h : A.WF) (x y : Arr R) (hx : A.n ≤ x.size)
    (hy : A.np ≤ y.size) :
    Ok (matvechSplitCsc A x y) fun y' => y'.size = y.size ∧
      IsMulH A.n A.np A.entry x.get y'.get ∧ SameFrom A.np y.get y'.get := by
  unfold matvechSplitCsc
  have hl := h.lwf; have hu := h.uwf
  have e1 := h.ln; have e2 := h.lnp; have e3 := h.un; have e4 := h.unp
  have := h.dsz; have := h.le
  refine Ok_loop_fill (fun j => ∑ i ∈ range A.n, star (A.entry i j) * x.get i) ?_ ?_
  · intro j y' _ hj hsz _ _
    have := hl.ptr.size; have := hu.ptr.size
    simp only [Ok_bind, Ok_rd, Ok_wr]
    refine ⟨by omega, by omega, by omega, by omega, Ok_accRowH
      (fun k _ hk => hl.access (by omega) (by omega) hk) ⟨by omega, by omega, Ok_accRowH
      (fun k _ hk => hu.access (by omega) (by omega) hk) ⟨by omega, ?_⟩⟩⟩
    rw [A.L.col_sumH hl _ (by omega), A.U.col_sumH hu _ (by omega), e1, e3]
    congr 1
    simp only [SplitCsc.entry, star_add, add_mul, sum_add_distrib, apply_ite star, star_zero,
        ite_mul, zero_mul, sum_ite_eq']
    rw [if_pos (by simp; omega)]
  · intro y' h1 h2 h3
    exact ⟨h1, fun i hi => h2 i (by omega) hi, fun i hi => h3 i (by omega)⟩

/-- C07 COO (split) -/
theorem matvechSplitCoo_spec (A : SplitCoo R) (h : A.WF) (x y : Arr R) (hx : A.n ≤ x.size)
    (hy : A.n ≤ y.size) :
    Ok (matvechSplitCoo A x y) fun y' => y'.size = y.size ∧
      IsMulH A.n A.n A.entry x.get y'.get ∧ SameFrom A.n y.get y'.get := by
  unfold matvechSplitCoo
  have hl := h.lwf; have hu := h.uwf
  have e1 := h.ln; have e3 := h.un
  simp only [Ok_bind]
  have hd := Ok_diagFill (c := star) (Q := fun y1 => y1.size = y.size ∧
    (∀ j, y1.get j = if j < A.n then star (A.D.get j) * x.get j else y.get j))
    (n := A.n) (d := A.D) (x := x) (y := y) h.dsz (by omega) hy (fun y' a b => ⟨a, b⟩)
  refine hd.mono ?_
  rintro y1 ⟨hs1, hz⟩
  have := hl.rsz; have := hl.csz; have := hl.vsz
  have := hu.rsz; have := hu.csz; have := hu.vsz
  refine Ok_scatterCoo (fun k hk => ?_) fun y2 hs2 hy2 => ?_
  · have := hl.row k hk; have := hl.col k hk; omega
  refine Ok_scatterCoo (fun k hk => ?_) fun y3 hs3 hy3 => ⟨by omega, fun i hi => ?_, fun i hi => ?_⟩
  · have := hu.row k hk; have := hu.col k hk; omega
  · rw [hy3, hy2, hz, if_pos hi, A.L.scatterH hl, A.U.scatterH hu, e1, e3]
    simp only [SplitCoo.entry, star_add, add_mul, sum_add_distrib, apply_ite star, star_zero,
        ite_mul, zero_mul, sum_ite_eq']
    rw [if_pos (by simpa using hi)]
  · rw [hy3, hy2, hz, if_neg (by omega), sum_eq_zero, sum_eq_zero, add_zero, add_zero]
    · intro k hk; have := hu.col k (by simpa using hk); rw [if_neg (by omega)]
    · intro k hk; have := hl.col k (by simpa using hk); rw [if_neg (by omega)]

omit [StarRing R] in
/-- C07 COO (unsplit): what the code computes is the product with the plain transpose -/
theorem matvechCoo_transpose (A : Coo R) (h : A.WF) (x y : Arr R) (hx : A.n ≤ x.size)
    (hy : A.n ≤ y.size) :
    Ok (matvechCoo A x y) fun y' => y'.size = y.size ∧
      IsMul A.n A.n (fun j i => A.entry i j) x.get y'.get ∧ SameFrom A.n y.get y'.get := by
  unfold matvechCoo
  simp only [Ok_bind]
  have := h.rsz; have := h.csz; have := h.vsz
  refine Ok_zeroFill hy fun y1 hs1 hz => ?_
  refine Ok_scatterCoo (fun k hk => ?_) fun y2 hs2 hy2 => ⟨by omega, fun i hi => ?_, fun i hi => ?_⟩
  · have := h.row k hk; have := h.col k hk; omega
  · rw [hy2, hz, if_pos hi, zero_add]
    simp only [Coo.entry, id, sum_mul, ite_mul, zero_mul]
    rw [sum_comm]
    refine sum_congr rfl fun k hk => ?_
    have := h.row k (by simpa using hk)
    by_cases hr : A.col.get k = i
    · simp [hr, this]
    · simp [hr]
  · rw [hy2, hz, if_neg (by omega), sum_eq_zero, add_zero]
    intro k hk; have := h.col k (by simpa using hk); rw [if_neg (by omega)]

/-- C07 COO (unsplit), `_partial`: correct when conjugation is trivial (the real build of the
library).  Missing: the complex build, where it is false — `matvechCoo_not_conj`. -/
theorem matvechCoo_spec_partial (hreal : ∀ r : R, star r = r)
    (A : Coo R) (h : A.WF) (x y : Arr R) (hx : A.n ≤ x.size) (hy : A.n ≤ y.size) :
    Ok (matvechCoo A x y) fun y' => y'.size = y.size ∧
      IsMulH A.n A.n A.entry x.get y'.get ∧ SameFrom A.n y.get y'.get := by
  refine (matvechCoo_transpose A h x y hx hy).mono ?_
  rintro y' ⟨h1, h2, h3⟩
  exact ⟨h1, fun j hj => by simp only [hreal]; exact h2 j hj, h3⟩

/-- C07 DNS -/
theorem matvechDns_spec (A : Dns R) (h : A.WF) (x y : Arr R) (hx : A.n ≤ x.size)
    (hy : A.np ≤ y.size) :
    Ok (matvechDns A x y) fun y' => y'.size = y.size ∧
      IsMulH A.n A.np A.entry x.get y'.get ∧ SameFrom A.np y.get y'.get := by
  unfold matvechDns
  refine Ok_loop_fill (fun j => ∑ i ∈ range A.n, star (A.entry i j) * x.get i) ?_ ?_
  · intro j y' _ hj hsz _ _
    simp only [Ok_bind]
    refine Ok_loop_sum' (fun i => star (A.entry i j) * x.get i) ?_ ?_
    · intro i t _ hi
      have hv := h.vsz
      have : (j + 1) * A.n ≤ A.np * A.n := Nat.mul_le_mul_right _ hj
      rw [Nat.add_mul] at this
      simp only [Ok_bind, Ok_rd, Ok_pure]
      exact ⟨by omega, by omega, rfl⟩
    · simp only [Ok_wr]
      refine ⟨by omega, ?_⟩
      rw [zero_add, sum_Ico_zero]
  · intro y' h1 h2 h3
    exact ⟨h1, fun i hi => h2 i (by omega) hi, fun i hi => h3 i (by omega)⟩

/-- C07 MSR -/
theorem matvechMsr_spec (A : Msr R) (h : A.WF) (x y : Arr R) (hx : A.n ≤ x.size)
    (hy : A.n ≤ y.size) :
    Ok (matvechMsr A x y) fun y' => y'.size = y.size ∧
      IsMulH A.n A.n A.entry x.get y'.get ∧ SameFrom A.n y.get y'.get := by
  unfold matvechMsr
  have := h.isz; have := h.vsz
  simp only [Ok_bind]
  have hd := Ok_diagFill (c := star) (Q := fun y1 => y1.size = y.size ∧
    (∀ j, y1.get j = if j < A.n then star (A.value.get j) * x.get j else y.get j))
    (n := A.n) (d := A.value) (x := x) (y := y) (by omega) (by omega) hy (fun y' a b => ⟨a, b⟩)
  refine hd.mono ?_
  rintro y1 ⟨hs1, hz⟩
  refine Ok_loop_add (fun i j => star (∑ k ∈ Ico (A.index.get i) (A.index.get (i + 1)),
    if A.index.get k = j then A.value.get k else 0) * x.get i) ?_ ?_
  · intro i y2 _ hi hs2
    have hr := h.range hi
    simp only [Ok_bind, Ok_rd]
    refine ⟨by omega, by omega, by omega, Ok_scatterCol
      (fun k _ hk => ?_) fun y3 hs3 hy3 => ⟨by omega, fun j => ?_⟩⟩
    · have := h.idx k (by omega) (by omega); omega
    rw [hy3]; simp only [ite_sum_star_mul]
  · intro y2 hs2 hy2
    refine ⟨by omega, fun j hj => ?_, fun j hj => ?_⟩
    · rw [hy2, hz, if_pos hj, sum_Ico_zero]
      simp only [Msr.entry, star_add, add_mul, sum_add_distrib, apply_ite star, star_zero,
        ite_mul, zero_mul, sum_ite_eq']
      rw [if_pos (by simpa using hj)]
    · rw [hy2, hz, if_neg (by omega), sum_eq_zero, add_zero]
      intro i hi
      rw [mem_Ico] at hi
      have hr := h.range hi.2
      rw [sum_eq_zero, star_zero, zero_mul]
      intro k hk; rw [mem_Ico] at hk
      have := h.idx k (by omega) (by omega)
      rw [if_neg (by omega)]

end mulH

/-! ### Non-vacuity: a concrete 3 × 3 matrix
```
 1 2 0
 0 3 4
 5 0 6
```
in every format, and a complex 1 × 1 matrix. -/
section examples

def exCsr : Csr ℤ := ⟨3, 3, 6, .ofList [0, 2, 4, 6], .ofList [0, 1, 1, 2, 0, 2],
  .ofList [1, 2, 3, 4, 5, 6]⟩
def exSplitCsr : SplitCsr ℤ := ⟨3, 3, .ofList [1, 3, 6],
  ⟨3, 3, 1, .ofList [0, 0, 0, 1], .ofList [0], .ofList [5]⟩,
  ⟨3, 3, 2, .ofList [0, 1, 2, 2], .ofList [1, 2], .ofList [2, 4]⟩⟩
def exCsc : Csc ℤ := ⟨3, 3, 6, .ofList [0, 2, 4, 6], .ofList [0, 2, 0, 1, 1, 2],
  .ofList [1, 5, 2, 3, 4, 6]⟩
def exSplitCsc : SplitCsc ℤ := ⟨3, 3, .ofList [1, 3, 6],
  ⟨3, 3, 1, .ofList [0, 1, 1, 1], .ofList [2], .ofList [5]⟩,
  ⟨3, 3, 2, .ofList [0, 0, 1, 2], .ofList [0, 1], .ofList [2, 4]⟩⟩
def exCoo : Coo ℤ := ⟨3, 6, .ofList [0, 2, 0, 1, 1, 2], .ofList [0, 0, 1, 1, 2, 2],
  .ofList [1, 5, 2, 3, 4, 6]⟩
def exSplitCoo : SplitCoo ℤ := ⟨3, .ofList [1, 3, 6],
  ⟨3, 1, .ofList [2], .ofList [0], .ofList [5]⟩,
  ⟨3, 2, .ofList [0, 1], .ofList [1, 2], .ofList [2, 4]⟩⟩
def exDns : Dns ℤ := ⟨3, 3, .ofList [1, 0, 5, 2, 3, 0, 0, 4, 6]⟩
def exMsr : Msr ℤ := ⟨3, 3, .ofList [4, 5, 6, 7, 1, 2, 0], .ofList [1, 3, 6, 0, 2, 4, 5]⟩
def exX : Arr ℤ := .ofList [1, 10, 100]
def exY : Arr ℤ := .ofList [7, 7, 7, 7]

theorem exCsr_wf : exCsr.WF := ⟨⟨by decide, by decide, by decide, by decide⟩, by decide, by decide,
  by decide⟩
theorem exSplitCsr_wf : exSplitCsr.WF := ⟨by decide, by decide, rfl, rfl, rfl, rfl,
  ⟨⟨by decide, by decide, by decide, by decide⟩, by decide, by decide, by decide⟩,
  ⟨⟨by decide, by decide, by decide, by decide⟩, by decide, by decide, by decide⟩⟩
theorem exCsc_wf : exCsc.WF := ⟨⟨by decide, by decide, by decide, by decide⟩, by decide, by decide,
  by decide⟩
theorem exSplitCsc_wf : exSplitCsc.WF := ⟨by decide, by decide, rfl, rfl, rfl, rfl,
  ⟨⟨by decide, by decide, by decide, by decide⟩, by decide, by decide, by decide⟩,
  ⟨⟨by decide, by decide, by decide, by decide⟩, by decide, by decide, by decide⟩⟩
theorem exCoo_wf : exCoo.WF := ⟨by decide, by decide, by decide, by decide, by decide⟩
theorem exSplitCoo_wf : exSplitCoo.WF := ⟨by decide, rfl, rfl,
  ⟨by decide, by decide, by decide, by decide, by decide⟩,
  ⟨by decide, by decide, by decide, by decide, by decide⟩⟩
theorem exDns_wf : exDns.WF := ⟨by decide⟩
theorem exMsr_wf : exMsr.WF := ⟨by decide, by decide, by decide, by decide, by decide, by decide⟩

example : exX.size = 3 ∧ exY.size = 4 := by decide
example : (matvecCsr exCsr exX exY).map Arr.toList = some [21, 430, 605, 7] := by decide
example : (matvecSplitCsr exSplitCsr exX exY).map Arr.toList = some [21, 430, 605, 7] := by decide
example : (matvecCsc exCsc exX exY).map Arr.toList = some [21, 430, 605, 7] := by decide
example : (matvecSplitCsc exSplitCsc exX exY).map Arr.toList = some [21, 430, 605, 7] := by decide
example : (matvecCoo exCoo exX exY).map Arr.toList = some [21, 430, 605, 7] := by decide
example : (matvecSplitCoo exSplitCoo exX exY).map Arr.toList = some [21, 430, 605, 7] := by decide
example : (matvecDns exDns exX exY).map Arr.toList = some [21, 430, 605, 7] := by decide
example : (matvecMsr exMsr exX exY).map Arr.toList = some [21, 430, 605, 7] := by decide
/-- a matrix for which the split branch of `lis_matvech` is undefined: 1 row, 2 local columns -/
example : ∃ A : SplitCsr ℤ, A.WF ∧ A.D.size = A.n ∧ A.n < A.np :=
  ⟨⟨1, 2, .ofList [3], ⟨1, 2, 0, .ofList [0, 0], .ofList [], .ofList []⟩,
    ⟨1, 2, 1, .ofList [0, 1], .ofList [1], .ofList [4]⟩⟩,
   ⟨by decide, by decide, rfl, rfl, rfl, rfl,
    ⟨⟨by decide, by decide, by decide, by decide⟩, by decide, by decide, by decide⟩,
    ⟨⟨by decide, by decide, by decide, by decide⟩, by decide, by decide, by decide⟩⟩, by decide, by decide⟩

/-- C07, a defect of the code (complex build): for the well-formed 1 × 1 COO matrix `(i)`,
`lis_matvech` returns `i*x` where the conjugate transpose gives `-i*x`. -/
theorem matvechCoo_not_conj :
    let A : Coo ℂ := ⟨1, 1, ⟨1, fun _ => 0⟩, ⟨1, fun _ => 0⟩, ⟨1, fun _ => Complex.I⟩⟩
    let x : Arr ℂ := ⟨1, fun _ => 1⟩
    A.WF ∧ ¬ Ok (matvechCoo A x x) (fun y' => IsMulH A.n A.n A.entry x.get y'.get) := by
  intro A x
  have hwf : A.WF := ⟨by decide, by decide, by decide, by simp [A], by simp [A]⟩
  refine ⟨hwf, fun hc => ?_⟩
  obtain ⟨y', _, ⟨_, h1, _⟩, h2⟩ := (matvechCoo_transpose A hwf x x (by decide) (by decide)).conj hc
  have h1 := h1 0 (by decide)
  have h2 := h2 0 (by decide)
  rw [h1] at h2
  simp [A, x, Coo.entry] at h2
  have h3 : (1 : ℝ) = -1 := by simpa using congrArg Complex.im h2
  norm_num at h3

end examples
end Lis
