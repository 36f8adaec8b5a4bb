import Verif.Props.SolveBsc

/-!
# C72: symmetric matrices, examples, and what goes wrong
-/

namespace Lis
open Finset

/-- **C72 (block size 1, symmetric matrix).** Here the preconditioner is the documented one. -/
theorem ssorBsc_symm {R : Type} [Field R] (junk : ℕ → ℕ → ℕ) (vjunk : ℕ → ℕ → R) (djunk wjunk sjunk : ℕ → R)
    (gjunk : ℕ → ℕ → R) {w : R}
    (hw : w ≠ 0) {A : Bsc R} (h : A.WF) (hs : A.Square) (h1 : A.bnr = 1) (hsym : ∀ i j, A.entry i j = A.entry j i)
    (hn : 0 < A.n) (hd : ∀ J, J < A.nc → A.DiagOnce J) (hm : A.BlockMinors) (b x : ℕ) {v : Vecs R}
    (hb : A.nc ≤ (v b).value.size) (hx : A.nc ≤ (v x).value.size) :
    Ok (ssorBsc junk vjunk djunk wjunk sjunk gjunk w A b x v) fun v' => OnlyChanged v x A.nc v' ∧
      SolvesSsorM A.n (fun i j => w * if i = j then A.entry i j else 0) (fun i j => if j < i then A.entry i j else 0)
        (fun i j => if i < j then A.entry i j else 0) (v' x).value.get (v b).value.get := by
  have hc := hs.cols
  have e : blockTr A.bnr A.entry = A.entry := by
    funext i j
    rw [h1, blockTr_one]; exact hsym j i
  have := ssorBsc_spec junk vjunk djunk wjunk sjunk gjunk hw h hs (by rw [hc, h1]; simp) hn hd hm b x
    (by rw [h1, Nat.mul_one]; exact hb) (by rw [h1, Nat.mul_one]; exact hx)
  refine this.mono ?_
  rintro v' ⟨g1, g2⟩
  rw [h1, Nat.mul_one] at g1
  refine ⟨g1, ?_⟩
  rw [e, h1] at g2
  simp only at g2
  have eM : (fun i j => w * blockMid 1 A.entry i j) = fun i j => w * if i = j then A.entry i j else 0 := by
    funext i j; simp only [blockMid, Nat.div_one]
  have eL : blockLow 1 A.entry = fun i j => if j < i then A.entry i j else 0 := by
    funext i j; simp only [blockLow, Nat.div_one]
  have eU : blockUp 1 A.entry = fun i j => if i < j then A.entry i j else 0 := by
    funext i j; simp only [blockUp, Nat.div_one]
  rw [eL, eU] at g2
  rw [← eM]; exact g2

/-- two vectors: `b` is vector 0, `x` vector 1 -/
def exBscV (n : ℕ) (b x : List ℚ) : Vecs ℚ := fun w => if w = 0 then ⟨n, .ofList b⟩ else ⟨n, .ofList x⟩

/-- `1 0 / 5 1`, block size 1 -/
def exBscA : Bsc ℚ := ⟨2, 2, 2, 1, 1, 3, .ofList [0, 2, 3], .ofList [0, 1, 1], .ofList [1, 5, 1]⟩

/-- `1 5 / 5 1`, block size 1 -/
def exBscSym : Bsc ℚ := ⟨2, 2, 2, 1, 1, 4, .ofList [0, 2, 4], .ofList [0, 1, 0, 1], .ofList [1, 5, 5, 1]⟩

/-- order 4 in 2 × 2 blocks, symmetric: unit diagonal, `A(0,3) = A(3,0) = 1` -/
def exBscB : Bsc ℚ := ⟨4, 2, 2, 2, 2, 4, .ofList [0, 2, 4], .ofList [0, 1, 0, 1],
  .ofList [1, 0, 0, 1, 0, 1, 0, 0, 0, 0, 1, 0, 1, 0, 0, 1]⟩

theorem exBscA_wf : exBscA.WF := ⟨⟨by decide, by decide, by decide, by decide⟩, by decide, by decide,
  by decide, by decide, by decide, by decide⟩
theorem exBscSym_wf : exBscSym.WF := ⟨⟨by decide, by decide, by decide, by decide⟩, by decide, by decide,
  by decide, by decide, by decide, by decide⟩
theorem exBscB_wf : exBscB.WF := ⟨⟨by decide, by decide, by decide, by decide⟩, by decide, by decide,
  by decide, by decide, by decide, by decide⟩
example : exBscA.Square := ⟨by decide, by decide, by decide⟩
example : exBscSym.Square := ⟨by decide, by decide, by decide⟩
theorem exBscB_sq : exBscB.Square := ⟨by decide, by decide, by decide⟩
example : exBscB.n = exBscB.nc * exBscB.bnr := by decide

theorem exBscB_diag : ∀ J, J < exBscB.nc → exBscB.DiagOnce J := by
  intro J hJ
  have : J = 0 ∨ J = 1 := by change J < 2 at hJ; omega
  rcases this with rfl | rfl
  · refine ⟨0, by decide, by decide, by decide, fun bc h1 h2 h3 => ?_⟩
    have : bc = 0 ∨ bc = 1 := by change bc < 2 at h2; omega
    rcases this with rfl | rfl
    · rfl
    · exact absurd h3 (by decide)
  · refine ⟨3, by decide, by decide, by decide, fun bc h1 h2 h3 => ?_⟩
    have : bc = 2 ∨ bc = 3 := by change 2 ≤ bc at h1; change bc < 4 at h2; omega
    rcases this with rfl | rfl
    · exact absurd h3 (by decide)
    · rfl

/-- the hypotheses on the diagonal blocks hold -/
example : exBscB.BlockMinors := by
  have e : ∀ I, I < 2 → ∀ i, i < 2 → ∀ j, j < 2 → exBscB.entry (I * 2 + i) (I * 2 + j) = if i = j then 1 else 0 := by
    decide +kernel
  intro I hI k hk hkn
  have hI' : I < 2 := hI
  have hk' : k ≤ 2 := hk
  have : (Matrix.of fun i j : Fin k => exBscB.entry (I * exBscB.bnr + i) (I * exBscB.bnr + j)) = 1 := by
    ext i j
    have h1 := e I hI' i (by have := i.2; omega) j (by have := j.2; omega)
    rw [Matrix.of_apply]
    refine h1.trans ?_
    rw [Matrix.one_apply]
    simp [Fin.ext_iff]
  rw [this, Matrix.det_one]
  exact one_ne_zero

def exBscRun (A : Bsc ℚ) (b x : List ℚ) : Option (List ℚ) :=
  (ssorBsc (fun _ _ => 0) (fun _ _ => 0) (fun _ => 77) (fun _ => 88) (fun _ => 99) (fun _ _ => 55) 1 A 0 1
    (exBscV A.n b x)).map fun h => (h 1).value.toList

/-- symmetric, block size 1: `(D+L)D⁻¹(D+U) (3,2) = (13,67)` -/
example : exBscRun exBscSym [13, 67] [7, 8] = some [3, 2] := by decide +kernel

/-- **C72 (deviation, block size 1).** For a lower triangular matrix SSOR with `w = 1` is the matrix itself, so the
documented result is `A⁻¹ b = (1, 5)`; the code solves with the transposed matrix. -/
theorem ssorBsc_transposes : exBscA.entry 0 1 = 0 ∧ exBscA.entry 1 0 = 5 ∧
    exBscRun exBscA [1, 10] [7, 8] = some [-49, 10] ∧
    ¬ ∃ x : List ℚ, exBscRun exBscA [1, 10] [7, 8] = some x ∧
      ∑ j ∈ range 2, exBscA.entry 0 j * x.getD j 0 = 1 ∧ ∑ j ∈ range 2, exBscA.entry 1 j * x.getD j 0 = 10 := by
  have e : exBscRun exBscA [1, 10] [7, 8] = some [-49, 10] := by decide +kernel
  refine ⟨by decide +kernel, by decide +kernel, e, ?_⟩
  rintro ⟨x, h1, h2, -⟩
  rw [e] at h1
  obtain rfl := Option.some.inj h1
  revert h2
  decide +kernel

/-- **C72 (deviation, larger blocks).** A symmetric matrix: the documented result `(D+L)D⁻¹(D+U) x = b` for
`b = (1,0,0,0)` is `x = (2,0,0,-1)`; the code returns `x = b`. -/
theorem ssorBsc_symmetric_wrong : (∀ i, i < 4 → ∀ j, j < 4 → exBscB.entry i j = exBscB.entry j i) ∧
    exBscRun exBscB [1, 0, 0, 0] [7, 8, 9, 6] = some [1, 0, 0, 0] ∧
    SolvesSsorM 4 (blockMid 2 exBscB.entry) (blockLow 2 exBscB.entry) (blockUp 2 exBscB.entry)
      ((Arr.ofList [2, 0, 0, (-1 : ℚ)]).get) ((Arr.ofList [1, 0, 0, (0 : ℚ)]).get) ∧
    ¬ SolvesSsorM 4 (blockMid 2 exBscB.entry) (blockLow 2 exBscB.entry) (blockUp 2 exBscB.entry)
      ((Arr.ofList [1, 0, 0, (0 : ℚ)]).get) ((Arr.ofList [1, 0, 0, (0 : ℚ)]).get) := by
  have eD : ∀ i, i < 4 → ∀ j, j < 4 → blockMid 2 exBscB.entry i j = if i = j then 1 else 0 := by decide +kernel
  have eL : ∀ i, i < 4 → ∀ j, j < 4 → blockLow 2 exBscB.entry i j = if i = 3 ∧ j = 0 then 1 else 0 := by decide +kernel
  have eU : ∀ i, i < 4 → ∀ j, j < 4 → blockUp 2 exBscB.entry i j = if i = 0 ∧ j = 3 then 1 else 0 := by decide +kernel
  refine ⟨by decide +kernel, by decide +kernel, ⟨(Arr.ofList [1, 0, 0, (-1 : ℚ)]).get, ?_, ?_⟩, ?_⟩
  · unfold SolvesTriM; decide +kernel
  · unfold SolvesTriM; decide +kernel
  · rintro ⟨y, h1, h2⟩
    have a0 := h1 0 (by decide)
    have a3 := h1 3 (by decide)
    have b0 := h2 3 (by decide)
    simp only [sum_range_succ, range_zero, sum_empty] at a0 a3 b0
    simp only [eD _ (show 0 < 4 by decide), eD _ (show 3 < 4 by decide), eL _ (show 0 < 4 by decide), eL _ (show 3 < 4 by decide),
      eU _ (show 3 < 4 by decide), show (0:ℕ) < 4 by decide, show (1:ℕ) < 4 by decide, show (2:ℕ) < 4 by decide, show (3:ℕ) < 4 by decide] at a0 a3 b0
    have v0 : (Arr.ofList [1, 0, 0, (0 : ℚ)]).get 0 = 1 := by decide +kernel
    have v3 : (Arr.ofList [1, 0, 0, (0 : ℚ)]).get 3 = 0 := by decide +kernel
    norm_num [v0, v3] at a0 a3 b0
    linarith

end Lis
