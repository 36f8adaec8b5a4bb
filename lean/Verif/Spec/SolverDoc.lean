import Verif.Spec.Solver
import Mathlib.Data.Real.Basic

/-!
# The documented convergence conditions (lis-ug, options -conv_cond, -tol, -tol_w)
-/

namespace Lis
variable {R : Type} {n : ℕ}

/-- real arithmetic for `LIS_REAL` -/
noncomputable instance instRealOpsReal : RealOps ℝ where
  fabs := fun x => |x|
  decLE := Classical.decRel _
  decEq := Classical.decEq _

/-- `-conv_cond nrm2_r`: `‖b-Ax‖₂ ≤ tol ‖b-Ax₀‖₂`; `nrm2_b`: `‖b-Ax‖₂ ≤ tol ‖b‖₂` (`≤ tol` when `b = 0`);
`nrm1_b`: `‖b-Ax‖₁ ≤ tol_w ‖b‖₁ + tol` -/
noncomputable def MeetsTol [Sub R] (K : Kit R ℝ n) (o : Opts R ℝ) (b x0 x : Fin n → R) : Prop :=
  match o.conv with
  | .nrm2R => K.nrm2 (fun i => b i - K.mv x i) ≤ o.tol * K.nrm2 (fun i => b i - K.mv x0 i)
  | .nrm2B => K.nrm2 (fun i => b i - K.mv x i) ≤ o.tol * (if K.nrm2 b = 0 then 1 else K.nrm2 b)
  | .nrm1B => K.nrm1 (fun i => b i - K.mv x i) ≤ o.tolW * K.nrm1 b + o.tol

end Lis
