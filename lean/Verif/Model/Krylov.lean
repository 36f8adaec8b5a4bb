import Verif.Model.Solver2

/-! The solvers by name -/

namespace Lis
variable {R S : Type}

/-- the modelled Krylov solvers (`-i cg`, `cocg`, …) -/
inductive Krylov where
  | cg | cocg | cr | cocr | bicg | bicr | cgs | crs | bicgstab | bicrstab | gpbicg | bicgsafe | gpbicr | bicrsafe
  /-- with `LIS_OPTIONS_RESTART` -/
  | orthomin (m : ℕ)
  deriving DecidableEq

variable [Zero R] [One R] [Add R] [Neg R] [Mul R] [Div R] [Sub R] [Star R] [DecidableEq R] [RealOps S]

/-- the table of solver functions, `lis_solver_execute`. src/solver/lis_solver.c:94-106 -/
def Krylov.prog (junk : S) (o : Opts R S) : Krylov → Prog R S (Out S)
  | .cg => lisCg junk o
  | .cocg => lisCocg junk o
  | .cr => lisCr junk o
  | .cocr => lisCocr junk o
  | .bicg => lisBicg junk o
  | .bicr => lisBicr junk o
  | .cgs => lisCgs junk o
  | .crs => lisCrs junk o
  | .bicgstab => lisBicgstab junk o
  | .bicrstab => lisBicrstab junk o
  | .gpbicg => lisGpbicg junk o
  | .bicgsafe => lisBicgsafe junk o
  | .gpbicr => lisGpbicr junk o
  | .bicrsafe => lisBicrsafe junk o
  | .orthomin m => lisOrthomin m junk o

/-- the inner product tests after which a solver gives up with `LIS_BREAKDOWN`, on the vectors it leaves behind -/
def Krylov.brk {n : ℕ} (K : Kit R S n) : Krylov → MHeap R n → Prop
  | .cg => fun h => h (wk 1) = K.mv (h (wk 3)) ∧ K.dot (h (wk 3)) (h (wk 1)) = 0
  | .cocg => fun h => h (wk 1) = K.mv (h (wk 3)) ∧ K.nhdot (h (wk 3)) (h (wk 1)) = 0
  | .cr => fun h => h (wk 4) = K.ps (h (wk 1)) ∧ K.dot (h (wk 4)) (h (wk 1)) = 0
  | .cocr => fun h => h (wk 4) = K.ps (h (wk 1)) ∧ K.nhdot (h (wk 4)) (h (wk 1)) = 0
  | .bicg => fun h => (h (wk 2) = K.ps (h (wk 0)) ∧ K.dot (h (wk 1)) (h (wk 2)) = 0) ∨ (h (wk 2) = K.mv (h (wk 4)) ∧ K.dot (h (wk 5)) (h (wk 2)) = 0)
  | .bicr => fun h => (h (wk 9) = K.mvh (h (wk 5)) ∧ h (wk 8) = K.ps (h (wk 6)) ∧ K.dot (h (wk 9)) (h (wk 8)) = 0) ∨ (h (wk 7) = K.mv (h (wk 2)) ∧ h (wk 3) = K.psh (h (wk 1)) ∧ K.dot (h (wk 3)) (h (wk 7)) = 0)
  | .cgs => fun h => K.dot (h (wk 1)) (h (wk 0)) = 0 ∨ (h (wk 3) = K.ps (h (wk 2)) ∧ h (wk 6) = K.mv (h (wk 3)) ∧ K.dot (h (wk 1)) (h (wk 6)) = 0)
  | .crs => fun h => (h (wk 3) = K.ps (h (wk 0)) ∧ K.dot (h (wk 1)) (h (wk 3)) = 0) ∨ (h (wk 4) = K.mv (h (wk 2)) ∧ h (wk 5) = K.ps (h (wk 4)) ∧ K.dot (h (wk 1)) (h (wk 5)) = 0)
  | .bicgstab => fun h => K.dot (h (wk 0)) (h (wk 1)) = 0 ∨ (∃ r, h (wk 2) = K.mv (K.ps r) ∧ K.dot (h (wk 2)) r / K.dot (h (wk 2)) (h (wk 2)) = 0)
  | .bicrstab => fun h => h (wk 8) = K.ps (h (wk 1)) ∧ K.dot (h (wk 0)) (h (wk 8)) = 0
  | .gpbicg => fun h => (h (wk 4) = K.mv (h (wk 3)) ∧ K.dot (h (wk 0)) (h (wk 4)) = 0) ∨ K.dot (h (wk 0)) (h (wk 1)) = 0
  | .bicgsafe => fun h => K.dot (h (wk 0)) (h (wk 1)) = 0
  | .gpbicr => fun h => (h (wk 4) = K.mv (h (wk 3)) ∧ h (wk 5) = K.ps (h (wk 4)) ∧ K.dot (h (wk 0)) (h (wk 5)) = 0) ∨ (h (wk 2) = K.ps (h (wk 1)) ∧ K.dot (h (wk 0)) (h (wk 2)) = 0)
  | .bicrsafe => fun h => h (wk 3) = K.mv (h (wk 2)) ∧ K.dot (h (wk 0)) (h (wk 3)) = 0
  | .orthomin m => fun h => ∃ j, j ≤ m ∧ K.dot (h (omApt m j)) (h (omApt m j)) = 0

end Lis
