import Verif.Props.MinresRes
import Verif.Props.GmresExamples

/-!
# C24/C25: examples and findings for lis_minres
-/

namespace Lis

/-- the hypotheses of `lisMinres_residual` are met: `A = [[3,4],[4,2]]`, no preconditioner -/
noncomputable def minKit : Kit ℝ ℝ 2 where
  mv := fun v => ![3 * v 0 + 4 * v 1, 4 * v 0 + 2 * v 1]
  mvh := fun v => ![3 * v 0 + 4 * v 1, 4 * v 0 + 2 * v 1]
  ps := id
  psh := id
  ls := id
  rdg := ![1 / 3, 1 / 2]
  dot := fun x y => x ⬝ᵥ y
  nhdot := fun x y => x ⬝ᵥ y
  nrm2 := fun v => Real.sqrt (v ⬝ᵥ v)
  nrm1 := fun v => |v 0| + |v 1|

example : minKit.Euclid ∧ minKit.Linear ∧ minKit.PsLinear ∧ (∀ x, minKit.ps (minKit.mv x) = 0 → x = 0) ∧
    (∀ x y, minKit.ps (minKit.mv x) ⬝ᵥ y = x ⬝ᵥ minKit.ps (minKit.mv y)) ∧
    minKit.ps (trueRes minKit (fun v => if v = hB then ![1, 0] else 0)) ≠ 0 := by
  refine ⟨⟨fun _ _ => rfl, fun _ => rfl⟩, ?_, fun _ _ _ => rfl, ?_, ?_, ?_⟩
  · intro a x y
    funext i
    fin_cases i <;> simp [minKit] <;> ring
  · intro x hx
    have h0 := congrFun hx 0
    have h1 := congrFun hx 1
    simp [minKit] at h0 h1
    funext i
    fin_cases i
    · show x 0 = 0; linarith
    · show x 1 = 0; linarith
  · intro x y
    simp [minKit, dotProduct, Fin.sum_univ_two]
    ring
  · intro h
    have := congrFun h 0
    simp [minKit, trueRes, hB, hX] at this

section runs
attribute [local instance] starRingOfComm ratReal

def minKitQ : Kit ℚ ℚ 2 where
  mv := fun v => ![3 * v 0 + 4 * v 1, 4 * v 0 + 2 * v 1]
  mvh := fun v => ![3 * v 0 + 4 * v 1, 4 * v 0 + 2 * v 1]
  ps := id
  psh := id
  ls := id
  rdg := ![1 / 3, 1 / 2]
  dot := fun x y => x 0 * y 0 + x 1 * y 1
  nhdot := fun x y => x 0 * y 0 + x 1 * y 1
  nrm2 := fun v => sqrtQ (v 0 * v 0 + v 1 * v 1)
  nrm1 := fun v => |v 0| + |v 1|

/-- two iterations solve `A x = (1,0)`; after one the residual is `4/5`. -/
example : ((lisMinres (R := ℚ) (S := ℚ) gmRat (gmOpts 5 0)).run minKitQ (gmState 1)).map
    (fun r => (r.1, r.2.h hX, r.2.hist.get 1, r.2.hist.get 2)) = some (⟨.success, 2, 0⟩, ![-1 / 5, 2 / 5], 4 / 5, 0) := by
  decide +kernel
example : ((lisMinres (R := ℚ) (S := ℚ) gmRat (gmOpts 1 0)).run minKitQ (gmState 1)).map
    (fun r => (r.1, r.2.h hX, trueRes minKitQ r.2.h)) = some (⟨.maxiter, 2, 4 / 5⟩, ![3 / 25, 0], ![16 / 25, -12 / 25]) := by
  decide +kernel
example : ((lisMinres (R := ℚ) (S := ℚ) gmRat (gmOpts 0 0)).run minKitQ (gmState 1)).map Prod.fst = some ⟨.maxiter, 1, 1⟩ := by
  decide +kernel

/-- `A = I`, `M⁻¹ = diag(1, 59/2320)` -/
def minKitP : Kit ℚ ℚ 2 := { minKitQ with
  mv := id, mvh := id, ps := fun v => ![v 0, 59 / 2320 * v 1], psh := fun v => ![v 0, 59 / 2320 * v 1] }

/-- Finding: `lis_minres` tests the preconditioned residual, and ignores `-conv_cond`.  With `tol = 4/5`, `x0 = 0` it
returns `LIS_SUCCESS` although `‖b - A x‖² > (4/5)² ‖b‖²`: neither `nrm2_r` nor `nrm2_b` holds (all square roots taken
in the run are exact). src/solver/lis_solver_minres.c:213-226 -/
theorem lisMinres_false_success : ∃ (K : Kit ℚ ℚ 2) (o : Opts ℚ ℚ) (s : MSt ℚ ℚ 2), o.conv = .nrm2R ∧ s.h hX = 0 ∧
    o.tol = 4 / 5 ∧ (∀ x, K.mv x = x) ∧ (∀ x y, K.dot x y = x 0 * y 0 + x 1 * y 1) ∧
    ((lisMinres (R := ℚ) (S := ℚ) gmRat o).run K s).map (fun r => (r.1.ret, r.1.iter,
      decide (o.tol ^ 2 * K.dot (s.h hB) (s.h hB) < K.dot (trueRes K r.2.h) (trueRes K r.2.h)))) = some (.success, 1, true) :=
  ⟨minKitP, gmOpts 5 (4 / 5), ⟨fun v => if v = hB then ![3, 4 * 2320 / 59] else 0, ⟨9, fun _ => -1⟩⟩, rfl, rfl, rfl,
    fun _ => rfl, fun _ _ => rfl, by decide +kernel⟩

end runs
end Lis
