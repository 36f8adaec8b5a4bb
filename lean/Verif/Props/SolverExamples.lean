import Verif.Props.ArrayStationary
import Mathlib.Data.Real.Star
import Mathlib.Tactic.FinCases
import Mathlib.Algebra.Order.Ring.Rat

/-!
# Concrete runs and negative results for the solvers
-/

namespace Lis

/-- The test before the first iteration uses `tol ‖b‖₁` for `nrm1_b`, not the documented `tol_w ‖b‖₁ + tol`: with
`tol > tol_w` every solver can return `LIS_SUCCESS` at once with an `x` that misses the documented condition.
(src/solver/lis_solver.c:1072-1076 compares with `solver->params[RESID]`.) -/
theorem nrm1_initial_too_weak (k : Krylov) :
    ∃ (K : Kit ℝ ℝ 1) (o : Opts ℝ ℝ) (s : MSt ℝ ℝ 1), K.Linear ∧ (∀ v, 0 ≤ K.nrm2 v) ∧ (∀ v, 0 ≤ K.nrm1 v) ∧ 0 ≤ o.tol ∧
      o.maxiter < s.hist.size ∧ (o.initZero → s.h hX = 0) ∧
      ∀ junk, Ok ((k.prog junk o).run K s) fun r => r.1.ret = .success ∧
        ¬ MeetsTol K o (s.h hB) (s.h hX) (r.2.h hX) := by
  let K : Kit ℝ ℝ 1 := ⟨id, id, id, id, id, 0, fun x y => x 0 * y 0, fun x y => x 0 * y 0, fun v => |v 0|, fun v => |v 0|⟩
  let o : Opts ℝ ℝ := { maxiter := 1, tol := 1, tolW := 0, conv := .nrm1B, initZero := true, mem := false, shadow := none }
  let s : MSt ℝ ℝ 1 := ⟨fun v => if v = hB then fun _ => 3 else 0, ⟨2, fun _ => 0⟩⟩
  have hb : s.h hB = fun _ => 3 := rfl
  have hx : s.h hX = 0 := rfl
  refine ⟨K, o, s, fun a x y => rfl, fun v => abs_nonneg _, fun v => abs_nonneg _, zero_le_one, Nat.lt_succ_self _,
    fun _ => hx, fun junk => ?_⟩
  refine (krylov_status k K o junk s (Nat.lt_succ_self _)).mono ?_
  intro r hc
  have hi : initialResOf K o s.h ≤ RealOps.fabs o.tol := by
    have e : initialResOf K o s.h = |(3:ℝ)| * (if |(3:ℝ)| = 0 then 1 else 1 / |(3:ℝ)|) := rfl
    have e2 : (RealOps.fabs o.tol : ℝ) = |1| := rfl
    rw [e, e2]
    norm_num
  rcases hc.cases with ⟨h1, -, h2, -⟩ | ⟨h, -⟩ | ⟨h, -⟩ | ⟨h, -⟩
  · refine ⟨by rw [h1], ?_⟩
    rw [h2]
    intro hm
    have e : MeetsTol K o (s.h hB) (s.h hX) (s.h hX) = (|(3:ℝ) - 0| ≤ 0 * |(3:ℝ)| + 1) := rfl
    rw [e] at hm
    norm_num at hm
  · exact absurd hi h
  · exact absurd hi h
  · exact absurd hi h

/-- With `maxiter = 0` the solvers report a residual nothing was stored in: any number. -/
theorem maxiter_zero_reports_junk (k : Krylov) :
    ∃ (K : Kit ℝ ℝ 1) (o : Opts ℝ ℝ) (s : MSt ℝ ℝ 1),
      ∀ junk, Ok ((k.prog junk o).run K s) fun r => r.1.resid = junk := by
  let K : Kit ℝ ℝ 1 := ⟨id, id, id, id, id, 0, fun x y => x 0 * y 0, fun x y => x 0 * y 0, fun v => |v 0|, fun v => |v 0|⟩
  let o : Opts ℝ ℝ := { maxiter := 0, tol := 0, tolW := 0, conv := .nrm2R, initZero := true, mem := false, shadow := none }
  let s : MSt ℝ ℝ 1 := ⟨fun v => if v = hB then fun _ => 3 else 0, ⟨2, fun _ => 0⟩⟩
  refine ⟨K, o, s, fun junk => ?_⟩
  refine (krylov_status k K o junk s (by decide)).mono ?_
  intro r hc
  have hi : ¬ initialResOf K o s.h ≤ RealOps.fabs o.tol := by
    have e : initialResOf K o s.h = |(3:ℝ)| * (if |(3:ℝ)| = 0 then 1 else 1 / |(3:ℝ)|) := rfl
    have e2 : (RealOps.fabs o.tol : ℝ) = |0| := rfl
    rw [e, e2]
    norm_num
  have h0 : o.maxiter = 0 := rfl
  rcases hc.cases with ⟨-, h, -⟩ | ⟨-, -, h, h', -⟩ | ⟨-, -, -, h⟩ | ⟨-, -, h, h', -⟩
  · exact absurd h hi
  · omega
  · rw [if_pos h0] at h; exact h
  · omega

/-! ### concrete runs

A symmetric positive definite `2 × 2` system over the rationals, `‖v‖₂` replaced by the sum of absolute values, which
is enough to run the solvers. -/

section runs
attribute [local instance] starRingOfComm

/-- rationals as `LIS_REAL` -/
@[local instance] def ratReal : RealOps ℚ where
  fabs := fun x => |x|
  decLE := inferInstance
  decEq := inferInstance

def demoKit : Kit ℚ ℚ 2 where
  mv := fun v => ![2 * v 0 + v 1, v 0 + v 1]
  mvh := fun v => ![2 * v 0 + v 1, v 0 + v 1]
  ps := id
  psh := id
  ls := fun v => ![v 0 / 2, v 1 - v 0 / 2]
  rdg := ![1 / 2, 1]
  dot := fun x y => x 0 * y 0 + x 1 * y 1
  nhdot := fun x y => x 0 * y 0 + x 1 * y 1
  nrm2 := fun v => |v 0| + |v 1|
  nrm1 := fun v => |v 0| + |v 1|

def demoOpts (maxiter : ℕ) : Opts ℚ ℚ := ⟨maxiter, true, .nrm1B, true, 0, 0, none⟩

def demoState (b : Fin 2 → ℚ) : MSt ℚ ℚ 2 := ⟨fun v => if v = hB then b else 0, ⟨5, fun _ => -1⟩⟩

deriving instance DecidableEq for Out

/-- the matrix of the example is linear in the sense of the residual theorems -/
example : demoKit.Linear := by
  intro a x y
  funext i
  fin_cases i <;> simp [demoKit] <;> ring

/-- each ending of the contract occurs: CG converges in two iterations, … -/
example : ((lisCg 77 (demoOpts 4)).run demoKit (demoState ![1, 0])).map Prod.fst = some ⟨.success, 2, 0⟩ := by decide +kernel
/-- … runs out of iterations, reporting `maxiter+1`, … -/
example : ((lisCg 77 (demoOpts 1)).run demoKit (demoState ![1, 0])).map Prod.fst = some ⟨.maxiter, 2, 1 / 2⟩ := by decide +kernel
/-- … stops before the first iteration, … -/
example : ((lisCg 77 (demoOpts 4)).run demoKit (demoState ![0, 0])).map Prod.fst = some ⟨.success, 1, 0⟩ := by decide +kernel
/-- … or breaks down, here in the first iteration, and reports the uninitialised residual. -/
example : ((lisCg 77 (demoOpts 4)).run { demoKit with mv := fun v => ![v 1, v 0] } (demoState ![1, 0])).map Prod.fst =
    some ⟨.breakdown, 1, 77⟩ := by decide +kernel

example : ∀ k : Krylov, (∀ m, k ≠ .orthomin m) →
    ((k.prog 77 (demoOpts 4)).run demoKit (demoState ![1, 0])).map Prod.fst = some ⟨.success, 2, 0⟩ := by
  intro k hk
  cases k
  case orthomin m => exact absurd rfl (hk m)
  all_goals decide +kernel
/-- Orthomin with one or two directions kept converges too, with none it does not in four iterations -/
example : (((Krylov.orthomin 1).prog 77 (demoOpts 4)).run demoKit (demoState ![1, 0])).map Prod.fst =
    some ⟨.success, 2, 0⟩ := by decide +kernel
example : (((Krylov.orthomin 2).prog 77 (demoOpts 4)).run demoKit (demoState ![1, 0])).map Prod.fst =
    some ⟨.success, 2, 0⟩ := by decide +kernel
example : (((Krylov.orthomin 0).prog 77 (demoOpts 4)).run demoKit (demoState ![1, 0])).map (fun r => (r.1.ret, r.1.iter)) =
    some (.maxiter, 5) := by decide +kernel

/-- Gauss-Seidel, three sweeps -/
example : ((lisGs 77 ⟨3, true, .nrm2B, true, 1 / 1000, 0, none⟩).run demoKit (demoState ![1, 0])).map Prod.fst =
    some ⟨.maxiter, 4, 1 / 4⟩ := by decide +kernel
end runs

end Lis
