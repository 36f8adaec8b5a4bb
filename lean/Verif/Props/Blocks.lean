import Verif.Lemmas.Blocks
import Verif.Props.Assembly

/-!
# C04 (BSR), C08 (BSR, BSC): building block matrices

`lis_matrix_assemble` to BSR, `lis_matrix_convert` CSR → BSR and CSC → BSC.
`junk`, `vjunk` are the arbitrary contents of freshly allocated memory.
-/

namespace Lis
open Finset
variable {R : Type}

theorem Csr.NoDup.rowList {A : Csr R} (h : A.NoDup) {i : ℕ} (hi : i < A.n) :
    ((A.rowList i).map Prod.fst).Nodup := by
  rw [List.nodup_iff_injective_get]
  rintro ⟨a, ha⟩ ⟨b, hb⟩ hab
  simp only [List.length_map, Csr.rowList_length] at ha hb
  simp only [List.get_eq_getElem, List.getElem_map, Csr.rowList, List.getElem_range] at hab
  have := h i hi (A.ptr.get i + a) (A.ptr.get i + b) (by omega) (by omega) (by omega) (by omega) hab
  simp only [Fin.mk.injEq]; omega

/-- a test for `NoDup` -/
theorem Csr.nodup_of {A : Csr R} (h : ∀ i, i < A.n → ∀ q, q < A.ptr.get (i + 1) - A.ptr.get i →
    ∀ r, r < A.ptr.get (i + 1) - A.ptr.get i → A.index.get (A.ptr.get i + q) = A.index.get (A.ptr.get i + r) →
    q = r) : A.NoDup := by
  intro i hi k l h1 h2 h3 h4 he
  have := h i hi (k - A.ptr.get i) (by omega) (l - A.ptr.get i) (by omega)
    (by rwa [show A.ptr.get i + (k - A.ptr.get i) = k by omega, show A.ptr.get i + (l - A.ptr.get i) = l by omega])
  omega

/-- a CSC matrix read as the CSR form of its transpose -/
def Csc.asCsr (A : Csc R) : Csr R := ⟨A.np, A.n, A.nnz, A.ptr, A.index, A.value⟩

theorem Csc.asCsr_wf {A : Csc R} (h : A.WF) : A.asCsr.WF := ⟨h.ptr, h.isz, h.vsz, h.idx⟩

theorem Csc.asCsr_entry [AddCommMonoid R] (A : Csc R) (i j : ℕ) : A.asCsr.entry j i = A.entry i j := rfl

/-- **C04 (BSR).** Assembling to BSR, for every block size. -/
theorem rco2bsr_spec [AddCommMonoid R] (junk : ℕ → ℕ → ℕ) (vjunk : ℕ → R) (A : AMat R) (bnr bnc : ℕ)
    (hr : 0 < bnr) (hc : 0 < bnc) (h : A.Ready) (hs : A.status = .assembling) :
    Ok (rco2bsr bnr bnc junk vjunk A) fun B => B.WF ∧ B.n = A.n ∧ B.bnr = bnr ∧ B.bnc = bnc ∧
      ∀ i j, i < A.n → B.entry i j = A.mat i j := by
  have hI : A.bufs.Inv A.n A.gn := by
    rcases h.st with ⟨hh, _⟩ | ⟨_, _, hI⟩
    · rw [hs] at hh; cases hh
    · exact hI
  unfold rco2bsr
  have hcol : ∀ i, i < A.n → ∀ e ∈ A.bufs.rowList i, e.1 < A.gn := fun i hi e he => hI.rowList_col hi he
  rw [Ok_bind]
  refine (blkConvert_spec (posOk_bsr (bnr := bnr) (bnc := bnc)) hc (AMat.lines_rep hI) (blocks_cover (n := A.gn) hc) hcol junk
    vjunk).mono ?_
  intro B hB
  rw [Ok_pure]
  refine ⟨⟨hB.ptrWF, hr, hc, blocks_cover' hr, hB.isz.ge, hB.vsz.ge, hB.idx_lt (blocks_cover (n := A.gn) hc) hcol⟩, rfl, rfl, rfl,
    fun i j hi => ?_⟩
  have := hB.sum (c := j) hc (fun i hi => hI.rowList_nodup hi) hr hi (blocks_cover hr i hi)
  rw [AMat.mat, if_pos hs, Bufs.entry_rowList, ← this]
  simp only [Bsr.entry, Nat.add_assoc]

/-- **C08 (CSR → BSR).** Conversion of a CSR matrix without duplicate positions, for every block size. -/
theorem csr2bsr_spec [AddCommMonoid R] (junk : ℕ → ℕ → ℕ) (vjunk : ℕ → R) (A : Csr R) (bnr bnc : ℕ)
    (hr : 0 < bnr) (hc : 0 < bnc) (h : A.WF) (hd : A.NoDup) (hsq : A.np = A.n) :
    Ok (csr2bsr bnr bnc junk vjunk A) fun B => B.WF ∧ B.n = A.n ∧ B.bnr = bnr ∧ B.bnc = bnc ∧
      ∀ i j, i < A.n → B.entry i j = A.entry i j := by
  unfold csr2bsr
  have hcol : ∀ i, i < A.n → ∀ e ∈ A.rowList i, e.1 < A.n := fun i hi e he => hsq ▸ h.rowList_col hi he
  rw [Ok_bind]
  refine (blkConvert_spec (posOk_bsr (bnr := bnr) (bnc := bnc)) hc (Csr.lines_rep h) (blocks_cover (n := A.n) hc) hcol junk
    vjunk).mono ?_
  intro B hB
  rw [Ok_pure]
  refine ⟨⟨hB.ptrWF, hr, hc, blocks_cover' hr, hB.isz.ge, hB.vsz.ge, hB.idx_lt (blocks_cover (n := A.n) hc) hcol⟩, rfl, rfl, rfl,
    fun i j hi => ?_⟩
  have := hB.sum (c := j) hc (fun i hi => hd.rowList hi) hr hi (blocks_cover hr i hi)
  rw [Csr.entry_rowList, ← this]
  simp only [Bsr.entry, Nat.add_assoc]

/-- **C08 (CSC → BSC), square blocks.** -/
theorem csc2bsc_spec [AddCommMonoid R] (junk : ℕ → ℕ → ℕ) (vjunk : ℕ → R) (A : Csc R) (b : ℕ)
    (hb : 0 < b) (h : A.WF) (hd : A.NoDup) (hsq : A.np = A.n) :
    Ok (csc2bsc b b junk vjunk A) fun B => B.WF ∧ B.n = A.n ∧ B.bnr = b ∧ B.bnc = b ∧
      ∀ i j, j < A.n → B.entry i j = A.entry i j := by
  unfold csc2bsc
  have hw := Csc.asCsr_wf h
  have hcol : ∀ i, i < A.np → ∀ e ∈ A.asCsr.rowList i, e.1 < A.n := fun i hi e he => hw.rowList_col (A := A.asCsr) hi he
  rw [Ok_bind]
  refine (blkConvert_spec (posOk_bsc (b := b)) hb (show A.lines.Rep A.np A.asCsr.rowList from Csr.lines_rep hw)
    (blocks_cover (n := A.n) hb) hcol junk vjunk).mono ?_
  intro B hB
  rw [Ok_pure]
  refine ⟨⟨hB.ptrWF, hb, hb, blocks_cover' hb, hB.isz.ge, hB.vsz.ge, hB.idx_lt (blocks_cover (n := A.n) hb) hcol⟩, rfl, rfl, rfl,
    fun i j hj => ?_⟩
  have := hB.sum (c := i) hb (fun i hi => Csr.NoDup.rowList (A := A.asCsr) hd hi) hb (i := j) (by omega) (blocks_cover hb j hj)
  rw [← Csc.asCsr_entry, Csr.entry_rowList, ← this]
  simp only [Bsc.entry]
  refine sum_congr rfl fun q _ => ?_
  rw [Nat.add_assoc, Nat.add_comm (i % b)]

/-! ### not vacuous, and where the code departs from the property -/

/-- 5×5 with rows of different lengths -/
def exCsr5 : Csr ℤ :=
  ⟨5, 5, 8, Arr.ofList [0, 2, 4, 4, 7, 8], Arr.ofList [0, 3, 1, 0, 4, 2, 3, 4],
    Arr.ofList [1, 2, 3, 4, 5, 6, 7, 8]⟩

theorem exCsr5_wf : exCsr5.WF := ⟨⟨by decide, by decide, by decide, by decide⟩, by decide, by decide, by decide⟩
theorem exCsr5_nodup : exCsr5.NoDup := Csr.nodup_of (by decide)

example : (csr2bsr 2 3 (fun _ _ => 7) (fun _ => 7) exCsr5).map (fun B =>
      (B.bptr.toList, B.bindex.toList, B.value.toList)) = some ([0, 2, 4, 5], [0, 1, 1, 0, 1],
      [1, 4, 0, 3, 0, 0, 2, 0, 0, 0, 0, 0, 0, 7, 0, 5, 0, 0, 0, 0, 0, 0, 0, 6, 0, 0, 8, 0, 0, 0]) := by decide

example : (do let A ← setCalls junk7 exCalls (matrixSetSize 3 0 (matrixCreate junk7)).2
              let B ← rco2bsr 2 2 (fun _ _ => 7) (fun _ => 7) A
              pure (B.bptr.toList, B.bindex.toList, B.value.toList)) =
    some ([0, 2, 3], [0, 1, 0], [7, 0, 0, 2, 9, 0, 0, 0, 0, 0, 8, 0]) := by decide

/-- the transpose of `exCsr5` in CSC -/
def exCsc5 : Csc ℤ := ⟨5, 5, 8, exCsr5.ptr, exCsr5.index, exCsr5.value⟩
example : exCsc5.WF := ⟨exCsr5_wf.ptr, exCsr5_wf.isz, exCsr5_wf.vsz, exCsr5_wf.idx⟩
example : exCsc5.NoDup := exCsr5_nodup

/-- **C08, negative.** A CSR matrix holding two elements `5` and `6` for position (0,0) (which every CSR
product adds up to 11) becomes a BSR matrix whose entry (0,0) is 6. -/
theorem csr2bsr_duplicates :
    let A : Csr ℤ := ⟨1, 1, 2, Arr.ofList [0, 2], Arr.ofList [0, 0], Arr.ofList [5, 6]⟩
    A.WF ∧ A.entry 0 0 = 11 ∧
    ∃ B, csr2bsr 1 1 (fun _ _ => 7) (fun _ => 7) A = some B ∧ B.entry 0 0 = 6 :=
  ⟨⟨⟨by decide, by decide, by decide, by decide⟩, by decide, by decide, by decide⟩, by decide, _, rfl, by decide⟩

/-- **C08, negative.** CSC → BSC with blocks of 1 row and 2 columns: the element of position (0,1) is
written outside the value array (`ij = j + ii*bnc`, lis_matrix_bsc.c:520). -/
theorem csc2bsc_rect_oob :
    let A : Csc ℤ := ⟨2, 2, 1, Arr.ofList [0, 0, 1], Arr.ofList [0], Arr.ofList [5]⟩
    A.WF ∧ A.NoDup ∧ csc2bsc 1 2 (fun _ _ => 7) (fun _ => 7) A = none := by
  refine ⟨⟨⟨by decide, by decide, by decide, by decide⟩, by decide, by decide, by decide⟩, ?_, by decide⟩
  intro j hj k l h1 h2 h3 h4 _
  have hj' : j < 2 := hj
  have e : ∀ j, j < 2 → (Arr.ofList [0, 0, 1]).get (j + 1) ≤ 1 := by decide
  have := e j hj'
  simp only at h2 h4
  omega

/-- **C08, negative.** CSC → BSC with blocks of 4 rows and 2 columns: the element of position (0,1) ends up
at position (2,0). -/
theorem csc2bsc_rect_wrong :
    let A : Csc ℤ := ⟨4, 4, 1, Arr.ofList [0, 0, 1, 1, 1], Arr.ofList [0], Arr.ofList [5]⟩
    A.WF ∧ A.entry 0 1 = 5 ∧
    ∃ B, csc2bsc 4 2 (fun _ _ => 7) (fun _ => 7) A = some B ∧ B.entry 0 1 = 0 ∧ B.entry 2 0 = 5 :=
  ⟨⟨⟨by decide, by decide, by decide, by decide⟩, by decide, by decide, by decide⟩, by decide, _, rfl, by decide, by decide⟩

end Lis
