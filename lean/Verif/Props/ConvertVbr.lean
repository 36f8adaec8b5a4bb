import Verif.Lemmas.ConvertVbr5
import Verif.Props.Convert2b

/-!
# C08, C09: VBR

`lis_matrix_convert` CSR → VBR (with the partition of `lis_matrix_set_blocksize`, or with the one that
`lis_matrix_get_vbr_rowcol` finds) and VBR → CSR.  `junk`, `vjunk` are the arbitrary contents of freshly
allocated memory.
-/

namespace Lis
open Finset
variable {R : Type}

/-- **C08 (CSR → VBR, given partition).** For every partition `row` of the rows and `col` of the columns
into intervals (empty intervals included), the result is a well-formed VBR matrix on that partition with the entries
of the input. -/
theorem csr2vbrWith_spec [AddCommMonoid R] (junk : ℕ → ℕ → ℕ) (vjunk : ℕ → R) (A : Csr R) (h : A.WF) (hd : A.NoDup)
    (hnp : A.np = A.n) (nr nc : ℕ) (row col : Arr ℕ) (hr : PtrWF nr A.n row) (hc : PtrWF nc A.n col) :
    Ok (csr2vbrWith nr nc row col junk vjunk A) fun B => B.WF ∧ B.n = A.n ∧ B.nr = nr ∧ B.nc = nc ∧ B.row = row ∧
      B.col = col ∧ ∀ i j, i < A.n → B.entry i j = A.entry i j := by
  refine (csr2vbrWith_holds h hnp hr hc junk vjunk).mono ?_
  rintro B ⟨f, hf, hB⟩
  exact ⟨hB.wf h hnp hr hc hf, hB.hn, hB.hnr, hB.hnc, hB.hrow, hB.hcol, fun i j hi => hB.entry h hd hnp hr hc hf hi⟩

/-- **C08 (VBR).** No block column occurs twice in a block row of the result, and a block is stored only if it
holds an element of the input. -/
theorem csr2vbrWith_blocks [AddCommMonoid R] (junk : ℕ → ℕ → ℕ) (vjunk : ℕ → R) (A : Csr R) (h : A.WF)
    (hnp : A.np = A.n) (nr nc : ℕ) (row col : Arr ℕ) (hr : PtrWF nr A.n row) (hc : PtrWF nc A.n col) :
    Ok (csr2vbrWith nr nc row col junk vjunk A) fun B => ∀ b, b < nr →
      (∀ k l, B.bptr.get b ≤ k → k < B.bptr.get (b + 1) → B.bptr.get b ≤ l → l < B.bptr.get (b + 1) →
        B.bindex.get k = B.bindex.get l → k = l) ∧
      ∀ k, B.bptr.get b ≤ k → k < B.bptr.get (b + 1) → ∃ i q, row.get b ≤ i ∧ i < row.get (b + 1) ∧
        A.ptr.get i ≤ q ∧ q < A.ptr.get (i + 1) ∧ col.get (B.bindex.get k) ≤ A.index.get q ∧
        A.index.get q < col.get (B.bindex.get k + 1) := by
  refine (csr2vbrWith_holds h hnp hr hc junk vjunk).mono ?_
  rintro B ⟨f, hf, hB⟩ b hb
  have hs : B.bptr.get (b + 1) = B.bptr.get b + (vbrT A row f b).length := by
    rw [hB.bptr _ (by omega), hB.bptr _ (by omega), sum_range_succ]
  rw [hs]
  have hix : ∀ k, (h1 : B.bptr.get b ≤ k) → (h2 : k < B.bptr.get b + (vbrT A row f b).length) →
      B.bindex.get k = (vbrT A row f b)[k - B.bptr.get b]'(by omega) := by
    intro k h1 h2
    have := hB.ix b hb (k - B.bptr.get b) (by omega)
    rwa [show B.bptr.get b + (k - B.bptr.get b) = k by omega] at this
  refine ⟨fun k l k1 k2 l1 l2 he => ?_, fun k k1 k2 => ?_⟩
  · rw [hix k k1 k2, hix l l1 l2] at he
    have := (List.Nodup.getElem_inj_iff (vcols_nodup _ _)).1 he
    omega
  · rw [hix k k1 k2]
    obtain ⟨e, he, hef⟩ := (vcols_mem _ _ _).1 (List.getElem_mem (l := vbrT A row f b) (n := k - B.bptr.get b) (by omega))
    obtain ⟨e1, e2⟩ := rowElems_mem.1 he
    have hm := hr.mono b hb
    have hle := hr.le_nnz (i := b + 1) hb
    have hlt := Csr.rowList_lt h (i := row.get b + e.1) (by omega) _ e2
    obtain ⟨q, hq, hqe⟩ := List.getElem_of_mem e2
    rw [Csr.rowList_get] at hqe
    rw [Csr.rowList_length] at hq
    obtain ⟨f1, f2, f3⟩ := hf _ (hnp ▸ hlt)
    rw [← hef]
    have hx : A.index.get (A.ptr.get (row.get b + e.1) + q) = e.2.1 := by rw [← hqe]
    exact ⟨row.get b + e.1, A.ptr.get (row.get b + e.1) + q, by omega, by omega, by omega, by omega, by omega, by omega⟩

/-- `lis_matrix_get_vbr_rowcol`: strictly increasing boundaries from 0; they reach `n` exactly if some element is
stored in the last column. -/
theorem vbrRowcol_boundaries (junk : ℕ → ℕ → ℕ) (A : Csr R) (h : A.WF) (hnp : A.np = A.n) :
    Ok (vbrRowcol junk A) fun r => r.2.get 0 = 0 ∧ (∀ i, i < r.1 → r.2.get i < r.2.get (i + 1)) ∧
      r.2.get r.1 ≤ A.n ∧ (r.2.get r.1 = A.n ↔ A.n = 0 ∨ ∃ q, q < A.nnz ∧ A.index.get q + 1 = A.n) :=
  (vbrRowcol_spec h hnp junk).mono fun _ h => h.2

/-- **C08 (CSR → VBR, partition found by the library).** If an element is stored in the last column, the input is
only sorted and the result is a well-formed VBR matrix with its entries. -/
theorem csr2vbr_spec [AddCommMonoid R] (junk : ℕ → ℕ → ℕ) (vjunk : ℕ → R) (A : Csr R) (h : A.WF) (hd : A.NoDup)
    (hnp : A.np = A.n) (hl : A.n = 0 ∨ ∃ q, q < A.nnz ∧ A.index.get q + 1 = A.n) :
    Ok (csr2vbr junk vjunk A) fun r => (r.2.WF ∧ r.2.n = A.n ∧ ∀ i j, i < A.n → r.2.entry i j = A.entry i j) ∧
      r.1.WF ∧ r.1.n = A.n ∧ r.1.np = A.np ∧ ∀ i j, i < A.n → r.1.entry i j = A.entry i j := by
  unfold csr2vbr
  simp only [Ok_bind]
  refine ((sortCsr_spec h).conj (sortCsr_perm h)).mono ?_
  rintro B ⟨⟨hw, hsorted, hn, hnpB, hent⟩, -, -, hnnz, hptr, g, g1, g2, g3⟩
  have hdB : B.NoDup := hd.rearranged hn hptr g1 g3
  refine (vbrRowcol_spec hw (by omega) _).mono ?_
  rintro ⟨k, row⟩ ⟨r1, r2, r3, r4, r5⟩
  simp only at r1 r2 r3 r4 r5
  have hrow : PtrWF k B.n row := ⟨r1.ge, r2, fun i hi => (r3 i hi).le, r5.2 (by
    rcases hl with hl | ⟨q, q1, q2⟩
    · exact Or.inl (by omega)
    · right
      obtain ⟨i, hi, i1, i2⟩ := h.ptr.locate q1
      obtain ⟨p, p1, p2, p3⟩ := perm_segment (g3 i hi) i1 i2
      exact ⟨p, by have := h.ptr.lt_nnz hi p2; omega, by rw [g1.2, p3, hn]; exact q2⟩)⟩
  refine (csr2vbrWith_spec junk vjunk B hw hdB (by omega) k k row row hrow hrow).mono ?_
  rintro V ⟨v1, v2, -, -, -, -, v3⟩
  rw [Ok_pure]
  exact ⟨⟨v1, by simp only; omega, fun i j hi => by simp only; rw [v3 i j (by omega), hent i j hi]⟩, hw, hn, hnpB, hent⟩

/-- **C09 (VBR → CSR).** -/
theorem vbr2csr_spec [AddCommMonoid R] [DecidableEq R] (junk : ℕ → ℕ → ℕ) (vjunk : ℕ → R) (A : Vbr R) (h : A.WF) :
    Ok (vbr2csr junk vjunk A) fun C => C.WF ∧ C.n = A.n ∧ C.np = A.n ∧
      ∀ i j, i < A.n → C.entry i j = A.entry i j := by
  refine (vbr2csr_spec' junk vjunk h).mono ?_
  rintro C ⟨c1, c2, hC⟩
  refine ⟨hC.wf fun r hr e he => ?_, c1, c2, fun i j hi => by rw [hC.entry (by omega), Vbr.nzOf_sum]⟩
  rw [c2]
  unfold Vbr.nzOf at he
  obtain ⟨b, _, hb, he⟩ := emits_mem.1 he
  split at he
  · unfold Vbr.nzRow at he
    obtain ⟨bc, h1, h2, he⟩ := emits_mem.1 he
    obtain ⟨l, _, hl, he⟩ := emits_mem.1 he
    unfold Vbr.wd at hl
    split at he
    · rw [List.mem_singleton] at he; subst he
      have hx := h.idx bc (h.bptr.lt_nnz hb h2)
      have := h.col.le_nnz (i := A.bindex.get bc + 1) hx
      simp only; omega
    · simp at he
  · simp at he

/-- **C09 (CSR → VBR → CSR).** -/
theorem csr_vbr_csr [AddCommMonoid R] [DecidableEq R] (junk junk' : ℕ → ℕ → ℕ) (vjunk vjunk' : ℕ → R) (A : Csr R) (h : A.WF)
    (hd : A.NoDup) (hnp : A.np = A.n) (nr nc : ℕ) (row col : Arr ℕ) (hr : PtrWF nr A.n row) (hc : PtrWF nc A.n col) :
    Ok (csr2vbrWith nr nc row col junk vjunk A >>= vbr2csr junk' vjunk') fun C => C.WF ∧ C.n = A.n ∧ C.np = A.n ∧
      ∀ i j, i < A.n → C.entry i j = A.entry i j := by
  rw [Ok_bind]
  refine (csr2vbrWith_spec junk vjunk A h hd hnp nr nc row col hr hc).mono ?_
  rintro V ⟨w, n1, -, -, -, -, e⟩
  refine (vbr2csr_spec junk' vjunk' V w).mono ?_
  rintro C ⟨w', m1, m2, e'⟩
  exact ⟨w', by omega, by omega, fun i j hi => by rw [e' i j (by omega), e i j hi]⟩

/-! ### not vacuous -/

/-- a partition of 5 into parts of sizes 2, 0, 1, 2 -/
def exPart5 : Arr ℕ := Arr.ofList [0, 2, 2, 3, 5]
theorem exPart5_wf : PtrWF 4 5 exPart5 := ⟨by decide, by decide, by decide, by decide⟩

example : (csr2vbrWith 4 4 exPart5 exPart5 (fun _ _ => 7) (fun _ => 7) exCsr5).map (fun B =>
      (B.bptr.toList, B.bindex.toList, B.ptr.toList, B.value.toList)) =
    some ([0, 2, 2, 2, 4], [0, 3, 3, 2], [0, 4, 8, 12, 14], [1, 4, 0, 3, 2, 0, 0, 0, 7, 0, 5, 8, 6, 0]) := by decide

example : Ok (csr2vbrWith 4 4 exPart5 exPart5 (fun _ _ => 7) (fun _ => 7) exCsr5) fun B => B.entry 3 4 = 5 :=
  (csr2vbrWith_spec _ _ _ exCsr5_wf exCsr5_nodup rfl 4 4 _ _ exPart5_wf exPart5_wf).mono fun _ h =>
    (h.2.2.2.2.2.2 3 4 (by decide)).trans (by decide)

example : Ok (csr2vbr (fun _ _ => 7) (fun _ => 7) exCsr5) fun r => r.2.entry 3 4 = 5 :=
  (csr2vbr_spec _ _ _ exCsr5_wf exCsr5_nodup rfl (Or.inr ⟨4, by decide, by decide⟩)).mono fun _ h =>
    (h.1.2.2 3 4 (by decide)).trans (by decide)

example : Ok (csr2vbrWith 4 4 exPart5 exPart5 (fun _ _ => 7) (fun _ => 7) exCsr5 >>= vbr2csr (fun _ _ => 7) (fun _ => 7))
    fun C => C.entry 3 4 = 5 :=
  (csr_vbr_csr _ _ _ _ _ exCsr5_wf exCsr5_nodup rfl 4 4 _ _ exPart5_wf exPart5_wf).mono fun _ h =>
    (h.2.2.2 3 4 (by decide)).trans (by decide)

/-- the CSR form of [[0,0],[5,0]]: sorted, well-formed, last column empty -/
def exLow2 : Csr ℤ := ⟨2, 2, 1, Arr.ofList [0, 0, 1], Arr.ofList [0], Arr.ofList [5]⟩

/-- **C08, negative.** If the last column stores nothing, the boundaries that the library finds stop before `n`, and
rows beyond the last boundary silently vanish: of [[0,0],[5,0]] nothing is left. -/
theorem csr2vbr_drops_rows : exLow2.WF ∧ exLow2.NoDup ∧ exLow2.entry 1 0 = 5 ∧
    ∃ row B, vbrRowcol (fun _ _ => 7) exLow2 = some (1, row) ∧
      csr2vbrWith 1 1 row row (fun _ _ => 7) (fun _ => 7) exLow2 = some B ∧ B.n = 2 ∧ B.bnnz = 0 ∧ B.entry 1 0 = 0 :=
  ⟨⟨⟨by decide, by decide, by decide, by decide⟩, by decide, by decide, by decide⟩, Csr.nodup_of (by decide), by decide,
    _, _, rfl, rfl, rfl, rfl, by decide⟩

end Lis
