import Verif.Props.BicgstablRes
import Verif.Props.IdrsExamples

/-!
# C24 and findings for lis_bicgstabl
-/

namespace Lis

section doc
variable {R : Type} {n : ℕ} [CommRing R] [Div R] [Star R] [DecidableEq R]

/-- **C24/C25**: with a zero initial guess (the default), `LIS_SUCCESS` from `lis_bicgstabl` means that the documented
condition holds for the `x` returned -/
theorem lisBicgstabl_success_meetsTol (l : ℕ) (hl : 1 ≤ l) (K : Kit R ℝ n) (hlin : K.Linear) (hps : K.PsLinear)
    (h2 : ∀ v, 0 ≤ K.nrm2 v) (h1 : ∀ v, 0 ≤ K.nrm1 v) (o : Opts R ℝ) (ht : 0 ≤ o.tol)
    (hw : o.conv = .nrm1B → o.tol ≤ o.tolW) (junk : ℝ) (s : MSt R ℝ n) (hsz : (o.maxiter / l + 1) * l < s.hist.size)
    (hz : s.h hX = 0) :
    Ok ((lisBicgstabl l junk o).run K s) fun r => r.1.ret = .success →
      MeetsTol K o (s.h hB) (s.h hX) (r.2.h hX) := by
  obtain ⟨r, hr, hc⟩ := lisBicgstabl_status l hl junk K o s hsz
  obtain ⟨r', hr', hc'⟩ := lisBicgstabl_reports l hl junk K hlin hps o s hsz hz
  rw [hr] at hr'
  cases hr'
  refine ⟨r, hr, fun hs => ?_⟩
  have hc2 : Contract K { o with maxiter := (o.maxiter / l + 1) * l } 0 (fun _ => False) s r.2 r.1 := by
    refine ⟨hc.b, hc.size, hc.hist, hc.fails, ?_⟩
    rcases hc.cases with h | h | ⟨-, h, -⟩ | ⟨-, h, -⟩
    · exact .inl h
    · exact .inr (.inl h)
    · rw [hs] at h; cases h
    · rw [hs] at h; cases h
  refine meetsTol_of_success (o := { o with maxiter := (o.maxiter / l + 1) * l }) hlin h2 h1 ht hw (fun _ => hz) hc2 ?_ hs
  rcases hc' (by rw [hs]; simp) with h | h | ⟨h, -⟩
  · exact .inl h
  · exact .inr (.inl h)
  · exact absurd hs h

end doc

section runs
attribute [local instance] starRingOfComm ratReal

/-- the preconditioner of the example is linear -/
example : demoKit.PsLinear := fun _ _ _ => rfl

/-- each ending occurs: converged in the second iteration for `l = 1, 2, 3`, … -/
example : ∀ l ∈ [1, 2, 3], ((lisBicgstabl (R := ℚ) (S := ℚ) l 77 (demoOpts 3)).run demoKit (demoState ![1, 0])).map
    (fun r => (r.1.ret, r.1.iter, r.1.resid)) = some (Err.success, 2, 0) := by decide +kernel
/-- … here is a run with `l = 2` and a full MR part, … -/
example : ((lisBicgstabl (R := ℚ) (S := ℚ) 2 77 (demoOpts 2)).run
      { demoKit with mv := fun v => ![2 * v 0 + v 1, v 1], ps := fun v => ![v 0 / 2, v 1] }
      ⟨fun v => if v = hB then ![1, 0] else 0, ⟨5, fun _ => -1⟩⟩).map
    (fun r => (r.1.ret, r.1.iter, r.1.resid)) = some (Err.success, 1, 0) := by decide +kernel
/-- … `LIS_MAXITER`: with `maxiter = 0`, `l = 1` one iteration is made, … -/
example : ((lisBicgstabl (R := ℚ) (S := ℚ) 1 77 (demoOpts 0)).run demoKit (demoState ![1, 0])).map
    (fun r => (r.1.ret, r.1.iter)) = some (Err.maxiter, 1) := by decide +kernel
/-- … and a breakdown. -/
example : ((lisBicgstabl (R := ℚ) (S := ℚ) 1 77 (demoOpts 4)).run { demoKit with mv := fun v => ![v 1, -v 0] }
    (demoState ![1, 0])).map Prod.fst = some ⟨.breakdown, 1, 77⟩ := by decide +kernel

/-- a symmetric 3×3 system -/
def demoKit3 : Kit ℚ ℚ 3 where
  mv := fun v => ![2 * v 0 + v 1, v 0 + 3 * v 1 + v 2, v 1 + v 2]
  mvh := fun v => ![2 * v 0 + v 1, v 0 + 3 * v 1 + v 2, v 1 + v 2]
  ps := id
  psh := id
  ls := id
  rdg := ![1 / 2, 1, 1]
  dot := fun x y => x 0 * y 0 + x 1 * y 1 + x 2 * y 2
  nhdot := fun x y => x 0 * y 0 + x 1 * y 1 + x 2 * y 2
  nrm2 := fun v => |v 0| + |v 1| + |v 2|
  nrm1 := fun v => |v 0| + |v 1| + |v 2|

/-- on a 3×3 system `lis_bicgstabl` with `l = 2` passes through the MR part and converges in the third iteration -/
example : ((lisBicgstabl (R := ℚ) (S := ℚ) 2 77 (demoOpts 4)).run demoKit3
      ⟨fun v => if v = hB then ![1, 0, 1] else 0, ⟨9, fun _ => -1⟩⟩).map
    (fun r => (r.1.ret, r.1.iter, r.1.resid, demoKit3.mv (r.2.h hX))) = some (Err.success, 3, 0, ![1, 0, 1]) := by decide +kernel

/-- Finding: with a nonzero initial guess (`-initx_zeros false`) `lis_bicgstabl` returns `LIS_SUCCESS` with residual 0
and a wrong `x`: `x` is not set to zero after `xp` is saved, so the guess counts twice.  Here `A = 2`, `b = 2`,
`x0 = 3`: the solution is 1, it returns 4. src/solver/lis_solver_bicgstabl.c:183, 217-220 -/
theorem lisBicgstabl_guess_counted_twice :
    ∃ (K : Kit ℚ ℚ 1) (o : Opts ℚ ℚ) (s : MSt ℚ ℚ 1), K.Linear ∧ K.PsLinear ∧ o.initZero = false ∧ s.h hB = ![2] ∧
      s.h hX = ![3] ∧ (∀ v, K.mv v = fun i => 2 * v i) ∧
      ((lisBicgstabl (R := ℚ) (S := ℚ) 1 77 o).run K s).map (fun r => (r.1.ret, r.1.resid, r.2.h hX)) =
        some (Err.success, 0, ![4]) := by
  refine ⟨⟨fun v => ![2 * v 0], fun v => ![2 * v 0], id, id, id, ![1 / 2], fun x y => x 0 * y 0, fun x y => x 0 * y 0,
    fun v => |v 0|, fun v => |v 0|⟩, ⟨5, false, .nrm2B, true, 0, 0, none⟩,
    ⟨fun v => if v = hB then ![2] else if v = hX then ![3] else 0, ⟨9, fun _ => -1⟩⟩, ?_, fun _ _ _ => rfl, rfl, rfl, rfl, ?_, ?_⟩
  · intro a x y
    funext i
    fin_cases i
    simp; ring
  · intro v
    funext i
    fin_cases i
    simp
  · decide +kernel

/-- Finding: on `LIS_MAXITER` the solution is not mapped back with the preconditioner: the `x` returned is not the one
the reported residual belongs to. Here (the 2×2 example with Jacobi) the reported residual and the true one differ.
src/solver/lis_solver_bicgstabl.c:397-402 -/
theorem lisBicgstabl_maxiter_wrong_x :
    ∃ (K : Kit ℚ ℚ 2) (o : Opts ℚ ℚ) (s : MSt ℚ ℚ 2), K.Linear ∧ K.PsLinear ∧ s.h hX = 0 ∧
      ((lisBicgstabl (R := ℚ) (S := ℚ) 1 77 o).run K s).map
        (fun r => decide (r.1.ret = .maxiter ∧ r.1.resid ≠ resOf K o.conv (bnrmOf K o s.h) (trueRes K r.2.h))) =
        some true := by
  refine ⟨{ demoKit with ps := fun v => ![v 0 / 2, v 1] }, demoOpts 0, demoState ![1, 0], ?_, ?_, rfl, by decide +kernel⟩
  · intro a x y
    funext i
    fin_cases i <;> simp [demoKit] <;> ring
  · intro a x y
    funext i
    fin_cases i <;> simp [demoKit] <;> ring

/-- Finding: with `l = 2` (the default) and an even `maxiter` the last pass ends with iteration `maxiter + 2`, and
`rhistory[maxiter+2]` is outside the array of `maxiter + 2` elements. src/solver/lis_solver_bicgstabl.c:196, 374-378 -/
theorem lisBicgstabl_rhistory_overflow : ∃ (K : Kit ℚ ℚ 3) (o : Opts ℚ ℚ) (s : MSt ℚ ℚ 3),
    s.hist.size = o.maxiter + 2 ∧ o.mem = true ∧ (lisBicgstabl (R := ℚ) (S := ℚ) 2 77 o).run K s = none :=
  ⟨demoKit3, demoOpts 0, ⟨fun v => if v = hB then ![1, 0, 1] else 0, ⟨2, fun _ => -1⟩⟩, rfl, rfl, by decide +kernel⟩

end runs
end Lis
