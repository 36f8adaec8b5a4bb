import Verif.Props.SolveScale
import Mathlib.Data.Rat.Defs
import Mathlib.Algebra.Field.Rat

/-!
# C37: the hypotheses of `runHistory_solves` are met, and what goes wrong without them
-/

namespace Lis

/-- there are linear solvers as `runHistory_solves` assumes them -/
theorem exists_solvesAll (R : Type) [NonUnitalNonAssocSemiring R] :
    ∃ exec : Csr R → Arr R → Arr R → Arr R, SolvesAll exec := by
  classical
  refine ⟨fun A b _ => if h : ∃ y, IsMul A.n A.np A.entry y b.get then ⟨A.n, h.choose⟩ else ⟨A.n, fun _ => 0⟩,
    fun A b x => ?_, fun A b x h => ?_⟩
  · split <;> exact le_refl _
  · simp only [dif_pos h]; exact h.choose_spec

/-- a program that follows the protocol: three right-hand sides, one of them refilled, and a new matrix -/
def demoOps : List (ScaleOp ℚ) :=
  let v := Arr.ofList [4]
  [.solve 0 v, .solve 1 v, .solve 0 v, .fill 1 v, .solve 1 v, .fill 0 v, .resetB 0, .solve 0 v,
   .fillA ⟨1, 1, 1, Arr.ofList [0, 1], Arr.ofList [0], Arr.ofList [5]⟩, .resetA, .solve 2 v]

example : Book.Follows demoOps Book.start := by
  simp [demoOps, Book.Follows, Book.Proper, Book.after, Book.start]

/-- a 1 × 1 matrix -/
def one1 (a : ℚ) : Csr ℚ := ⟨1, 1, 1, Arr.ofList [0, 1], Arr.ofList [0], Arr.ofList [a]⟩

example : (one1 2).Scalable 1 where
  wf := by
    refine ⟨⟨le_refl _, rfl, ?_, rfl⟩, by decide, by decide, ?_⟩
    · intro i hi
      obtain rfl : i = 0 := by change i < 1 at hi; omega
      decide
    · intro k hk
      obtain rfl : k = 0 := by change k < 1 at hk; omega
      decide
  hn := rfl
  hnp := rfl
  diag := fun i hi => by
    obtain rfl : i = 0 := by omega
    refine ⟨0, ⟨by decide, by decide, by decide⟩, fun l _ h2 _ => ?_⟩
    change l < 1 at h2
    omega
  nz := fun i hi => by
    obtain rfl : i = 0 := by omega
    decide +kernel

/-- the linear solver for 1 × 1 systems -/
def exec1 (A : Csr ℚ) (b _x : Arr ℚ) : Arr ℚ := Arr.ofList [b.get 0 / A.value.get 0]

/-- the system 2 x = 4, three right-hand sides -/
def sys1 : SSys ℚ := ⟨one1 2, false, fun _ => Arr.ofList [4], fun _ => false, fun _ => none⟩

def results (r : Option (SSys ℚ × List (Arr ℚ))) : Option (List ℚ) := r.map fun q => q.2.map fun x => x.get 0

/-- proper use: 2 x = 4 solved with three right-hand sides and again with the first -/
example : results (runHistory (·⁻¹) id (fun _ => 7) exec1 { scale := .jacobi } 0
    [.solve 0 (Arr.ofList [0]), .solve 1 (Arr.ofList [0]), .solve 2 (Arr.ofList [0]), .solve 0 (Arr.ofList [0])] sys1) =
    some [2, 2, 2, 2] := by decide +kernel

/-- **Finding.** A right-hand side that is scaled for an already scaled matrix is not marked: solving with it a second
time scales it twice and returns a wrong solution (1 instead of 2) without an error. -/
theorem solve_twice_scales_twice :
    results (runHistory (·⁻¹) id (fun _ => 7) exec1 { scale := .jacobi } 0
      [.solve 0 (Arr.ofList [0]), .solve 1 (Arr.ofList [0]), .solve 1 (Arr.ofList [0])] sys1) =
    some [2, 2, 1] := by decide +kernel

/-- **Finding.** New values stored in a marked right-hand side are not scaled: without `lis_vector_psd_reset_scale` the
second solve works on an unscaled right-hand side (4 instead of 2). -/
theorem refill_without_reset :
    results (runHistory (·⁻¹) id (fun _ => 7) exec1 { scale := .jacobi } 0
      [.solve 0 (Arr.ofList [0]), .fill 0 (Arr.ofList [4]), .solve 0 (Arr.ofList [0])] sys1) =
    some [2, 4] := by decide +kernel

/-- **Finding.** A second solver object has no `d`: it allocates one, never fills it because the matrix is already
scaled, and multiplies the right-hand side by whatever the memory held. -/
theorem other_solver_uses_uninitialised (junk : ℕ → ℚ) :
    ∃ S1 x1 S2 x2, solveCall (·⁻¹) id (fun _ => 7) exec1 { scale := .jacobi } 0 0 (Arr.ofList [0]) sys1 = some (S1, x1) ∧
      solveCall (·⁻¹) id junk exec1 { scale := .jacobi } 1 1 (Arr.ofList [0]) S1 = some (S2, x2) ∧
      x1.get 0 = 2 ∧ x2.get 0 = 4 * junk 0 := by
  refine ⟨_, _, _, _, rfl, rfl, by decide +kernel, ?_⟩
  show 4 * junk 0 / _ = _
  have : ∀ q : ℚ, q = 2 * 2⁻¹ → 4 * junk 0 / q = 4 * junk 0 := by
    rintro q rfl
    rw [show (2 * 2⁻¹ : ℚ) = 1 by decide +kernel, div_one]
  exact this _ rfl

/-- **Finding.** With a stationary solver and a preconditioner the matrix is scaled once, but right-hand sides of later
calls are not scaled at all. -/
theorem stationary_second_rhs_unscaled :
    results (runHistory (·⁻¹) id (fun _ => 7) exec1 { scale := .none, stationary := true, precon := true } 0
      [.solve 0 (Arr.ofList [0]), .solve 1 (Arr.ofList [0])] sys1) =
    some [2, 4] := by decide +kernel

/-- **Finding.** A stationary solver with a preconditioner scales rows, but with `-scale symm_diag` the result is
multiplied by the row factors as after a symmetric scaling: the first solve already is wrong (1 instead of 2). -/
theorem stationary_symm_unscaled_twice :
    results (runHistory (·⁻¹) id (fun _ => 7) exec1 { scale := .symm, stationary := true, precon := true } 0
      [.solve 0 (Arr.ofList [0])] sys1) = some [1] := by decide +kernel

/-- **Finding.** Switching the same solver object to CG between solves with `-scale jacobi`: the matrix is still
row-scaled, but the result is multiplied by `d` as after a symmetric scaling. -/
theorem switch_to_cg_wrong :
    ∃ S1 x1 S2 x2,
      solveCall (·⁻¹) id (fun _ => 7) exec1 { scale := .jacobi } 0 0 (Arr.ofList [0]) sys1 = some (S1, x1) ∧
      solveCall (·⁻¹) id (fun _ => 7) exec1 { scale := .jacobi, cg := true } 0 0 (Arr.ofList [0]) S1 = some (S2, x2) ∧
      x1.get 0 = 2 ∧ x2.get 0 = 1 := by
  refine ⟨_, _, _, _, rfl, rfl, by decide +kernel, by decide +kernel⟩

/-- **Finding.** Likewise a solve without scaling after one with symmetric scaling works on the scaled data and returns
the scaled unknowns (here with `rsq v = 1/2` for the diagonal 4 of 4 x = 4, so `x = 1`). -/
theorem none_after_symm_wrong :
    ∃ S1 x1 S2 x2,
      solveCall (·⁻¹) (fun v => 2 / v) (fun _ => 7) exec1 { scale := .symm } 0 0 (Arr.ofList [0])
        ⟨one1 4, false, fun _ => Arr.ofList [4], fun _ => false, fun _ => none⟩ = some (S1, x1) ∧
      solveCall (·⁻¹) (fun v => 2 / v) (fun _ => 7) exec1 { scale := .none } 0 0 (Arr.ofList [0]) S1 = some (S2, x2) ∧
      x1.get 0 = 1 ∧ x2.get 0 = 2 := by
  refine ⟨_, _, _, _, rfl, rfl, by decide +kernel, by decide +kernel⟩

/-- `-scale none` without I+S or preconditioned stationary solvers leaves matrix, right-hand sides and marks alone. -/
theorem kernelScale_none {R : Type} [Zero R] [Mul R] (inv rsq : R → R) (vjunk : ℕ → R) (c : ScaleSet) (s k : ℕ)
    (S : SSys R) (h1 : c.preIS = false) (h2 : (c.stationary && c.precon) = false) (h3 : c.scale = .none) :
    kernelScale inv rsq vjunk c s k S = some (S, .none) := by
  unfold kernelScale
  simp [h1, h2, h3]

end Lis
