import Verif.Props.AnyMatScale
import Mathlib.Tactic.IntervalCases
import Mathlib.Algebra.Order.Ring.Rat

/-!
# C11–C13: examples, and where the diagonal and scaling functions of some formats go wrong
-/

namespace Lis
open Finset
variable {R : Type}

/-! ### the matrix `[4 1 0; 0 2 1; 1 0 5]` in several formats -/

def dgCoo : AnyMat ℚ := .coo ⟨3, 6, .ofList [0, 0, 1, 1, 2, 2], .ofList [0, 1, 1, 2, 0, 2], .ofList [4, 1, 2, 1, 1, 5]⟩
def dgMsr : AnyMat ℚ := .msr 6 ⟨3, 3, .ofList [4, 5, 6, 7, 1, 2, 0], .ofList [4, 2, 5, 0, 1, 1, 1]⟩
def dgDia : AnyMat ℚ := .dia ⟨3, 3, .ofList [-2, 0, 1], .ofList [0, 0, 1, 4, 2, 5, 1, 1, 0]⟩
def dgEll : AnyMat ℚ := .ell ⟨3, 2, .ofList [0, 1, 0, 1, 2, 2], .ofList [4, 2, 1, 1, 1, 5]⟩
def dgJad : AnyMat ℚ := .jad ⟨3, 3, 6, 2, .ofList [0, 1, 2], .ofList [0, 3, 6], .ofList [0, 1, 0, 1, 2, 2],
  .ofList [4, 2, 1, 1, 1, 5]⟩
def dgBsr : AnyMat ℚ := .bsr ⟨3, 2, 2, 2, 2, 4, .ofList [0, 2, 4], .ofList [0, 1, 0, 1],
  .ofList [4, 0, 1, 2, 0, 1, 0, 0, 1, 0, 0, 0, 5, 0, 0, 0]⟩
def dgVbr : AnyMat ℚ := .vbr ⟨3, 3, 3, 6, .ofList [0, 1, 2, 3], .ofList [0, 1, 2, 3], .ofList [0, 1, 2, 3, 4, 5, 6],
  .ofList [0, 2, 4, 6], .ofList [0, 1, 1, 2, 0, 2], .ofList [4, 1, 2, 1, 1, 5]⟩
def dgDns : AnyMat ℚ := .dns ⟨3, 3, .ofList [4, 0, 1, 1, 2, 0, 0, 1, 5]⟩

example : dgCoo.WF ∧ dgCoo.Distinct ∧ dgCoo.DiagReachable ∧ dgCoo.Packed := by
  refine ⟨⟨?_, ?_, ?_, ?_, ?_⟩, ?_, trivial, trivial⟩
  · decide
  · decide
  · decide
  · decide
  · decide
  · intro k l hk hl
    change k < 6 at hk
    change l < 6 at hl
    interval_cases k <;> interval_cases l <;> decide

example : dgMsr.WF ∧ dgMsr.Distinct ∧ dgMsr.DiagReachable ∧ dgMsr.Packed := by
  refine ⟨⟨⟨?_, ?_, ?_, ?_, ?_, ?_⟩, rfl⟩, ?_, trivial, trivial⟩
  · decide
  · decide
  · decide
  · decide
  · decide
  · intro k h1 h2
    change 4 ≤ k at h1
    change k < 7 at h2
    interval_cases k <;> decide
  · intro i hi k l h1 h2 h3 h4
    change i < 3 at hi
    interval_cases i
    · change 4 ≤ k at h1; change k < 5 at h2; change 4 ≤ l at h3; change l < 5 at h4
      interval_cases k; interval_cases l; decide
    · change 5 ≤ k at h1; change k < 6 at h2; change 5 ≤ l at h3; change l < 6 at h4
      interval_cases k; interval_cases l; decide
    · change 6 ≤ k at h1; change k < 7 at h2; change 6 ≤ l at h3; change l < 7 at h4
      interval_cases k; interval_cases l; decide

example : dgDia.WF ∧ dgDia.Distinct ∧ dgDia.DiagReachable ∧ dgDia.Packed := by
  refine ⟨⟨?_, ?_⟩, ?_, ⟨1, by decide, by decide⟩, trivial⟩
  · decide
  · decide
  · intro k l hk hl
    change k < 3 at hk
    change l < 3 at hl
    interval_cases k <;> interval_cases l <;> decide

example : dgEll.WF ∧ dgEll.DiagReachable ∧ dgEll.Packed := by
  refine ⟨⟨?_, ?_, ?_⟩, ?_, trivial⟩
  · decide
  · decide
  · intro j hj i hi
    change j < 2 at hj
    change i < 3 at hi
    interval_cases i <;> interval_cases j <;> decide
  · intro i hi k l hkl hl
    change i < 3 at hi
    change l < 2 at hl
    interval_cases l
    · omega
    · interval_cases k
      interval_cases i <;> decide

theorem dgJad_ok : dgJad.WF ∧ dgJad.Distinct ∧ dgJad.DiagReachable ∧ dgJad.Packed := by
  refine ⟨⟨⟨⟨?_, ?_, ?_, ?_⟩, ?_, ?_, ?_, ?_, ?_, ?_, ?_⟩, rfl⟩, ?_, trivial, trivial⟩
  · decide
  · decide
  · decide
  · decide
  · decide
  · decide
  · decide
  · intro k l hk hl
    change k < 3 at hk
    change l < 3 at hl
    interval_cases k <;> interval_cases l <;> decide
  · decide
  · decide
  · decide
  · intro d e hd he k h1 h2
    change d < 2 at hd
    change e < 2 at he
    interval_cases d <;> interval_cases e <;> change k < 3 at h1 <;> interval_cases k <;> decide

theorem dgBsr_ok : dgBsr.WF ∧ dgBsr.Distinct ∧ dgBsr.DiagReachable ∧ dgBsr.Packed := by
  refine ⟨⟨⟨⟨?_, ?_, ?_, ?_⟩, ?_, ?_, ?_, ?_, ?_, ?_⟩, ?_, ?_⟩, ?_, Or.inl rfl, trivial⟩
  · decide
  · decide
  · decide
  · decide
  · decide
  · decide
  · decide
  · decide
  · decide
  · decide
  · decide
  · intro br hbr bc h1 h2 i j hi hj
    change br < 2 at hbr
    change i < 2 at hi
    change j < 2 at hj
    interval_cases br
    · change 0 ≤ bc at h1; change bc < 2 at h2
      interval_cases bc <;> interval_cases i <;> interval_cases j <;> decide +kernel
    · change 2 ≤ bc at h1; change bc < 4 at h2
      interval_cases bc <;> interval_cases i <;> interval_cases j <;> decide +kernel
  · intro b hb k l h1 h2 h3 h4
    change b < 2 at hb
    interval_cases b
    · change 0 ≤ k at h1; change k < 2 at h2; change 0 ≤ l at h3; change l < 2 at h4
      interval_cases k <;> interval_cases l <;> decide
    · change 2 ≤ k at h1; change k < 4 at h2; change 2 ≤ l at h3; change l < 4 at h4
      interval_cases k <;> interval_cases l <;> decide

/-- the same matrix with blocks of 2 rows and 1 column -/
def dgBsrRect : AnyMat ℚ := .bsr ⟨3, 2, 3, 2, 1, 5, .ofList [0, 3, 5], .ofList [0, 1, 2, 0, 2],
  .ofList [4, 0, 1, 2, 0, 1, 1, 0, 5, 0]⟩

theorem dgBsrRect_ok : dgBsrRect.WF ∧ dgBsrRect.Distinct ∧ dgBsrRect.DiagReachable ∧ dgBsrRect.Packed := by
  refine ⟨⟨⟨⟨?_, ?_, ?_, ?_⟩, ?_, ?_, ?_, ?_, ?_, ?_⟩, ?_, ?_⟩, ?_, Or.inr ⟨?_, ?_⟩, trivial⟩
  iterate 11 decide
  · intro br hbr bc h1 h2 i j hi hj
    change br < 2 at hbr
    change i < 2 at hi
    change j < 1 at hj
    interval_cases br
    · change 0 ≤ bc at h1; change bc < 3 at h2
      interval_cases bc <;> interval_cases i <;> interval_cases j <;> decide +kernel
    · change 3 ≤ bc at h1; change bc < 5 at h2
      interval_cases bc <;> interval_cases i <;> interval_cases j <;> decide +kernel
  · intro b hb k l h1 h2 h3 h4
    change b < 2 at hb
    interval_cases b
    · change 0 ≤ k at h1; change k < 3 at h2; change 0 ≤ l at h3; change l < 3 at h4
      interval_cases k <;> interval_cases l <;> decide
    · change 3 ≤ k at h1; change k < 5 at h2; change 3 ≤ l at h3; change l < 5 at h4
      interval_cases k <;> interval_cases l <;> decide
  · intro b hb k l h1 h2 h3
    change b < 2 at hb
    interval_cases b
    · change 0 ≤ k at h1; change l < 3 at h3
      interval_cases l <;> interval_cases k <;> decide
    · change 3 ≤ k at h1; change l < 5 at h3
      interval_cases l
      · omega
      · omega
      · omega
      · omega
      · interval_cases k; decide
  · intro i hi
    change i < 3 at hi
    interval_cases i
    · exact ⟨0, by decide, by decide, by decide⟩
    · exact ⟨1, by decide, by decide, by decide⟩
    · exact ⟨4, by decide, by decide, by decide⟩

theorem dgVbr_ok : dgVbr.WF ∧ dgVbr.Distinct ∧ dgVbr.DiagReachable ∧ dgVbr.Packed := by
  refine ⟨⟨⟨?_, ?_, ?_, ?_⟩, ⟨?_, ?_, ?_, ?_⟩, ⟨?_, ?_, ?_, ?_⟩, ?_, ?_, ?_, ?_⟩, ?_, ⟨rfl, 1, by decide, ?_⟩, ?_, ?_⟩
  iterate 15 decide
  · intro b hb c h1 h2
    change b < 3 at hb
    interval_cases b
    · change 0 ≤ c at h1; change c < 2 at h2; interval_cases c <;> decide
    · change 2 ≤ c at h1; change c < 4 at h2; interval_cases c <;> decide
    · change 4 ≤ c at h1; change c < 6 at h2; interval_cases c <;> decide
  · intro b hb k l h1 h2 h3 h4
    change b < 3 at hb
    interval_cases b
    · change 0 ≤ k at h1; change k < 2 at h2; change 0 ≤ l at h3; change l < 2 at h4
      interval_cases k <;> interval_cases l <;> decide
    · change 2 ≤ k at h1; change k < 4 at h2; change 2 ≤ l at h3; change l < 4 at h4
      interval_cases k <;> interval_cases l <;> decide
    · change 4 ≤ k at h1; change k < 6 at h2; change 4 ≤ l at h3; change l < 6 at h4
      interval_cases k <;> interval_cases l <;> decide
  · intro b hb
    change b ≤ 3 at hb
    interval_cases b <;> decide
  · decide
  · intro b hb c h1 h2
    change b < 3 at hb
    interval_cases b
    · change 0 ≤ c at h1; change c < 2 at h2; interval_cases c <;> decide
    · change 2 ≤ c at h1; change c < 4 at h2; interval_cases c <;> decide
    · change 4 ≤ c at h1; change c < 6 at h2; interval_cases c <;> decide

/-- runs of the model: the diagonal of the nine copies -/
example : [dgCoo, dgMsr, dgDia, dgEll, dgJad, dgBsr, dgBsrRect, dgVbr, dgDns].map
    (fun A => (A.getDiagonal (.ofList [9, 9, 9, 9])).map Arr.toList) = List.replicate 9 (some [4, 2, 5, 9]) := by
  decide +kernel

/-- the values stored -/
def AnyMat.vals : AnyMat R → List R
  | .csr A => A.value.toList | .csc A => A.value.toList | .msr _ A => A.value.toList | .dia A => A.value.toList
  | .ell A => A.value.toList | .jad A => A.value.toList | .bsr A => A.value.toList | .bsc A => A.value.toList
  | .vbr A => A.value.toList | .dns A => A.value.toList | .coo A => A.value.toList

example : (dgBsr.shiftDiagonal 1).map AnyMat.vals = some [3, 0, 1, 1, 0, 1, 0, 0, 1, 0, 0, 0, 4, 0, 0, 0] := by
  decide +kernel
example : (dgJad.shiftDiagonal 1).map AnyMat.vals = some [3, 1, 1, 1, 1, 4] := by decide +kernel
example : (dgVbr.scaleJacobi (·⁻¹) (.ofList [8, 2, 5]) (.ofList [0, 0, 0])).map
    (fun r => (r.1.vals, r.2.1.toList)) = some ([1, 1/4, 1, 1/2, 1/5, 1], [2, 1, 1]) := by decide +kernel
example : (dgBsr.scaleJacobi (·⁻¹) (.ofList [8, 2, 5]) (.ofList [0, 0, 0, 9])).map
    (fun r => (r.1.vals, r.2.1.toList)) =
    some ([1, 0, 1/4, 1, 0, 1/2, 0, 0, 1/5, 0, 0, 0, 1, 0, 0, 0], [2, 1, 1]) := by decide +kernel

/-! ### findings -/

/-- **C11, exception.** DIA without a main diagonal: `lis_matrix_get_diagonal` and `lis_matrix_shift_diagonal` read (and
write) past the end of the value array. -/
theorem getDiagonalDia_undefined [Sub R] {A : Dia R} (h : A.WF) (hx : A.value.size = A.nnd * A.n) (hn : 0 < A.n)
    (hno : ∀ e, e < A.nnd → A.index.get e ≠ 0) (d : Arr R) (sigma : R) :
    getDiagonalDia A d = none ∧ shiftDiagonalDia A sigma = none := by
  have his := h.isz
  have hf : findDiag0 A = some A.nnd := by
    have : Ok (findDiag0 A) fun e => e = A.nnd := by
      unfold findDiag0
      refine Ok_loopB (fun j s => s = j) rfl ?_ ?_
      · rintro j s - hj rfl
        simp only [Ok_bind, Ok_rd, Ok_ite, Ok_pure]
        exact ⟨by omega, fun h0 => absurd h0 (hno s hj), fun _ => by simp⟩
      · rintro s rfl; omega
    obtain ⟨e, h1, rfl⟩ := this
    exact h1
  have hrd : A.value.rd (A.nnd * A.n) = none := by
    unfold Arr.rd
    rw [if_neg (by omega)]
  constructor
  · unfold getDiagonalDia
    rw [hf]
    show loop 0 A.n d _ = none
    obtain ⟨m, hm⟩ : ∃ m, A.n = m + 1 := ⟨A.n - 1, by omega⟩
    have : ∀ s, (loop 0 A.n d fun i d => do
        let v ← A.value.rd (A.nnd * A.n + i)
        d.wr i v) = s → s = none := by
      rintro s rfl
      rw [show A.n = m + 1 from hm] at hrd ⊢
      simp [loop, iter, hrd]
    exact this _ rfl
  · unfold shiftDiagonalDia
    rw [hf]
    obtain ⟨m, hm⟩ : ∃ m, A.n = m + 1 := ⟨A.n - 1, by omega⟩
    have : ∀ s, (loop 0 A.n A.value fun i value => subAt value (A.nnd * A.n + i) sigma) = s → s = none := by
      rintro s rfl
      rw [show A.n = m + 1 from hm] at hrd ⊢
      simp [loop, iter, hrd, subAt]
    show (loop 0 A.n A.value fun i value => subAt value (A.nnd * A.n + i) sigma).bind _ = none
    rw [this _ rfl]; rfl

/-- `[0 1; 0 0]` in DIA meets the hypotheses -/
example : (Dia.mk 2 1 (.ofList [1]) (.ofList [1, 0]) : Dia ℚ).WF ∧ (Arr.ofList [(1 : ℚ), 0]).size = 1 * 2 ∧
    ∀ e, e < 1 → (Arr.ofList [(1 : ℤ)]).get e ≠ 0 := ⟨⟨by decide, by decide⟩, by decide, by decide⟩

/-- **C11, exception.** COO, JAD, BSR, BSC and VBR leave in `d` what was there before where the diagonal element is not
stored: here `[0 1; 1 0]` with old contents 7, 8. -/
theorem getDiagonal_stale :
    ((AnyMat.coo ⟨2, 2, .ofList [0, 1], .ofList [1, 0], .ofList [1, 1]⟩ : AnyMat ℚ).getDiagonal (.ofList [7, 8])).map
      Arr.toList = some [7, 8] ∧
    ((AnyMat.jad ⟨2, 2, 2, 1, .ofList [0, 1], .ofList [0, 2], .ofList [1, 0], .ofList [1, 1]⟩ : AnyMat ℚ).getDiagonal
      (.ofList [7, 8])).map Arr.toList = some [7, 8] ∧
    ((AnyMat.bsr ⟨2, 2, 2, 1, 1, 2, .ofList [0, 1, 2], .ofList [1, 0], .ofList [1, 1]⟩ : AnyMat ℚ).getDiagonal
      (.ofList [7, 8])).map Arr.toList = some [7, 8] := by decide +kernel

/-- `[1 0 0; 0 2 0; 0 0 3]` in VBR with block rows {0}, {1,2} -/
def vbrUneven : AnyMat ℚ := .vbr ⟨3, 2, 2, 2, .ofList [0, 1, 3], .ofList [0, 1, 3], .ofList [0, 1, 5],
  .ofList [0, 1, 2], .ofList [0, 1], .ofList [1, 2, 0, 0, 3]⟩

/-- **C11, exception.** VBR with blocks of different sizes: the functions locate the diagonal with `bjj*bnc` instead of
`col[bjj]`; rows 1 and 2 of a matrix that stores `A(1,1) = 2` and `A(2,2) = 3` are not found. -/
theorem getDiagonalVbr_uneven :
    (vbrUneven.getDiagonal (.ofList [7, 8, 9])).map Arr.toList = some [1, 8, 9] ∧
    (vbrUneven.entry 1 1, vbrUneven.entry 2 2) = (2, 3) := by decide +kernel

example : vbrUneven.WF := by
  refine ⟨⟨?_, ?_, ?_, ?_⟩, ⟨?_, ?_, ?_, ?_⟩, ⟨?_, ?_, ?_, ?_⟩, ?_, ?_, ?_, ?_⟩
  iterate 15 decide
  · intro b hb c h1 h2
    change b < 2 at hb
    interval_cases b
    · change 0 ≤ c at h1; change c < 1 at h2; interval_cases c; decide
    · change 1 ≤ c at h1; change c < 2 at h2; interval_cases c; decide

/-- **C11, exception.** BSR with blocks that are not square, blocks of a row not in ascending order: `diag(1, 2)` with
2×1 blocks, the second column first.  Row 1 is not found although it is stored. -/
theorem getDiagonalBsr_unsorted :
    ((AnyMat.bsr ⟨2, 1, 2, 2, 1, 2, .ofList [0, 2], .ofList [1, 0], .ofList [0, 2, 1, 0]⟩ : AnyMat ℚ).getDiagonal
      (.ofList [7, 8])).map Arr.toList = some [1, 8] ∧
    (AnyMat.bsr ⟨2, 1, 2, 2, 1, 2, .ofList [0, 2], .ofList [1, 0], .ofList [0, 2, 1, 0]⟩ : AnyMat ℚ).entry 1 1 = 2 := by
  decide +kernel

/-- `[2 1; 0 4]` in BSC with 1×1 blocks -/
def bscSc : AnyMat ℚ := .bsc ⟨2, 2, 2, 1, 1, 3, .ofList [0, 1, 3], .ofList [0, 0, 1], .ofList [2, 1, 4]⟩

/-- **C13, exception.** Jacobi scaling of a BSC matrix scales the columns of `A` but the rows of `b`: the scaled system has
another solution.  `[2 1; 0 4] x = [3, 4]` has the solution `[1, 1]`; the scaled system `[1 1/4; 0 1] x = [3/2, 1]`
does not. -/
theorem scaleJacobi_bsc_wrong :
    (bscSc.scaleJacobi (·⁻¹) (.ofList [3, 4]) (.ofList [0, 0])).map (fun r => (r.1.vals, r.2.1.toList)) =
      some ([1, 1/4, 1], [3/2, 1]) ∧
    IsMul 2 2 bscSc.entry (fun _ => 1) ((Arr.ofList [(3 : ℚ), 4]).get) ∧
    ¬ IsMul 2 2 (Bsc.entry ⟨2, 2, 2, 1, 1, 3, .ofList [0, 1, 3], .ofList [0, 0, 1], .ofList [1, 1/4, 1]⟩)
      (fun _ => 1) ((Arr.ofList [(3/2 : ℚ), 1]).get) := by
  refine ⟨by decide +kernel, ?_, ?_⟩
  · unfold IsMul; decide +kernel
  · unfold IsMul; decide +kernel

/-- **C13, exception.** Symmetric scaling of a COO matrix multiplies by `d_i²` instead of `d_i d_j`:
`[4 2; 0 1]` with `d = (1/2, 1)` becomes `[1 1/2; 0 1]` instead of `[1 1; 0 1]`. -/
theorem scaleSymmCoo_wrong :
    (scaleSymmCoo (⟨2, 3, .ofList [0, 0, 1], .ofList [0, 1, 1], .ofList [4, 2, 1]⟩ : Coo ℚ) (.ofList [1/2, 1])).map
      (fun B => B.value.toList) = some [1, 1/2, 1] := by decide +kernel

end Lis
