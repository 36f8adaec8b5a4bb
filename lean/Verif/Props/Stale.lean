import Verif.Lemmas.Sem
import Verif.Model.Krylov
import Verif.Props.GmresExamples
import Verif.Props.SolverExamples

/-!
# Solvers do not depend on what their work vectors held before

`lis_solve` allocates fresh, zeroed work vectors, but the inner solver of the hybrid preconditioner keeps its work vectors
from one application to the next (src/precon/lis_precon_hybrid.c:60-225).  A preconditioner is a fixed operator only if the
solver's answer is determined by `b` and `x`.
-/

namespace Lis
variable {R S : Type} {n : ℕ}

section
variable [Zero R] [One R] [Add R] [Neg R] [Mul R] [Div R] [Sub R] [Star R] [DecidableEq R] [RealOps S]

/-- With the solvers in this list the status, iteration count, residual, history and `x` are determined by `A`, the
preconditioner, `b`, `x` and the options: nothing of a previous run shines through.  Holds for every kind of scalars, so also
with rounding, infinities and NaNs. -/
theorem krylov_ignores_work (K : Kit R S n) (junk : S) (o : Opts R S) (k : Krylov)
    (hk : k ≠ .gpbicg ∧ k ≠ .gpbicr ∧ k ≠ .bicgsafe ∧ k ≠ .bicrsafe) : IgnoresWork K (k.prog junk o) := by
  obtain ⟨h1, h2, h3, h4⟩ := hk
  cases k
  case gpbicg => exact absurd rfl h1
  case gpbicr => exact absurd rfl h2
  case bicgsafe => exact absurd rfl h3
  case bicrsafe => exact absurd rfl h4
  case cg => exact (cg_clean dotLike_dot junk o).ignores K
  case cocg => exact (cg_clean dotLike_nhdot junk o).ignores K
  case cr => exact (cr_clean dotLike_dot junk o).ignores K
  case cocr => exact (cr_clean dotLike_nhdot junk o).ignores K
  case bicg => exact (bicg_clean junk o).ignores K
  case bicr => exact (bicr_clean junk o).ignores K
  case cgs => exact (cgs_clean junk o).ignores K
  case crs => exact (crs_clean junk o).ignores K
  case bicgstab => exact (bicgstab_clean junk o).ignores K
  case bicrstab => exact (bicrstab_clean junk o).ignores K
  case orthomin m => exact (orthomin_clean m junk o).ignores K

theorem minres_ignores_work (K : Kit R S n) (F : GmFns R S) (o : Opts R S) : IgnoresWork K (lisMinres F o) :=
  (minres_clean F o).ignores K
theorem tfqmr_ignores_work (K : Kit R S n) (F : TfqmrFns R S) (junk : S) (o : Opts R S) : IgnoresWork K (lisTfqmr F junk o) :=
  (tfqmr_clean F junk o).ignores K
theorem gmres_ignores_work (K : Kit R S n) (F : GmFns R S) (m : ℕ) (junk : S) (o : Opts R S) :
    IgnoresWork K (lisGmres F m junk o) := (gmres_clean F m junk o).ignores K
theorem fgmres_ignores_work (K : Kit R S n) (F : GmFns R S) (m : ℕ) (hm : 1 ≤ m) (junk : S) (o : Opts R S) :
    IgnoresWork K (lisFgmres F m hm junk o) := (fgmres_clean F m hm junk o).ignores K
theorem bicgstabl_ignores_work (K : Kit R S n) (l : ℕ) (junk : S) (o : Opts R S) :
    IgnoresWork K (lisBicgstabl l junk o) := (bicgstabl_clean l junk o).ignores K
theorem idrs_ignores_work (K : Kit R S n) (s : ℕ) (J : ℕ → R) (junk : S) (jom : R) (toR : S → R) (rnd : ℕ → ℕ → R) (o : Opts R S) :
    IgnoresWork K (lisIdrs s J junk jom toR rnd o) := (idrs_clean s J junk jom toR rnd o).ignores K
theorem idr1_ignores_work (K : Kit R S n) (toR : S → R) (rnd : ℕ → R) (o : Opts R S) :
    IgnoresWork K (lisIdr1 toR rnd o) := (idr1_clean toR rnd o).ignores K
theorem jacobi_ignores_work (K : Kit R S n) (junk : S) (o : Opts R S) : IgnoresWork K (lisJacobi junk o) :=
  (jacobi_clean junk o).ignores K
theorem gs_ignores_work (K : Kit R S n) (junk : S) (o : Opts R S) : IgnoresWork K (lisGs junk o) :=
  (gs_clean junk o).ignores K
theorem sor_ignores_work (K : Kit R S n) (junk : S) (o : Opts R S) : IgnoresWork K (lisSor junk o) :=
  (gs_clean junk o).ignores K
end

/-! ### BiCGSafe and BiCRSafe: only if the leftovers are finite -/

section
variable [One R] [Neg R] [Add R] [MulZeroClass R] [Div R] [Sub R] [Star R] [DecidableEq R] [RealOps S]

theorem Sem.ignores {K : Kit R S n} {p : Prog R S (Out S)} (h : Sem K (OutOk (Out S)) p {hB, hX}) : IgnoresWork K p := by
  intro s s' e1 e2 e3
  have hV : Agree ({hB, hX} : Set ℕ) s.h s'.h := by
    rintro v (rfl | rfl)
    · exact e1
    · exact e2
  rcases h s.hist s'.hist s s' hV ⟨e3, fun i => Or.inr ⟨rfl, rfl⟩⟩ with h | ⟨a, t, t', W, r1, r2, hW, hA, hs⟩
  · exact Or.inl h
  · exact Or.inr ⟨a, t, t', r1, r2, hA _ hW.1, hA _ hW.2, hs⟩

/-- `lis_bicgsafe` multiplies the leftover `y`, `u`, `z` by zero in the first iteration: as long as `0 * a = 0` (no
infinity, no NaN is left over) they do not matter -/
theorem bicgsafe_ignores_work (K : Kit R S n) (junk : S) (o : Opts R S) : IgnoresWork K (lisBicgsafe junk o) :=
  (bicgsafe_sem K junk o).ignores
theorem bicrsafe_ignores_work (K : Kit R S n) (junk : S) (o : Opts R S) : IgnoresWork K (lisBicrsafe junk o) :=
  (bicrsafe_sem K junk o).ignores
end

/-! ### Findings -/

section findings
attribute [local instance] starRingOfComm ratReal

/-- the work vector `mr` holds `m` -/
def staleSt (v : ℕ) (m : Fin 2 → ℚ) : MSt ℚ ℚ 2 :=
  ⟨fun i => if i = hB then ![1, 0] else if i = v then m else 0, ⟨9, fun _ => -1⟩⟩

/-- Finding: `lis_gpbicg` uses `mr` in its first iteration before setting it (src/solver/lis_solver_gpbicg.c:262; the
preconditioned residual goes to `p` only, line 194).  What an earlier run left there changes the iterates: even with exact
arithmetic `x` after one iteration depends on it. -/
theorem gpbicg_stale : ∃ (K : Kit ℚ ℚ 2) (o : Opts ℚ ℚ), ¬ IgnoresWork K (lisGpbicg 77 o) := by
  refine ⟨gmKitQ, gmOpts 1 0, fun h => ?_⟩
  rcases h (staleSt (wk 2) ![0, 0]) (staleSt (wk 2) ![1, 0]) rfl rfl rfl with ⟨h, -⟩ | ⟨a, t, t', h1, h2, hx, -⟩
  · revert h; decide +kernel
  · have e1 : ((lisGpbicg 77 (gmOpts 1 0)).run gmKitQ (staleSt (wk 2) ![0, 0])).map (fun r => r.2.h hX) = some (t.h hX) := by
      rw [h1]; rfl
    have e2 : ((lisGpbicg 77 (gmOpts 1 0)).run gmKitQ (staleSt (wk 2) ![1, 0])).map (fun r => r.2.h hX) = some (t'.h hX) := by
      rw [h2]; rfl
    have : ((lisGpbicg 77 (gmOpts 1 0)).run gmKitQ (staleSt (wk 2) ![0, 0])).map (fun r => r.2.h hX) =
      ((lisGpbicg 77 (gmOpts 1 0)).run gmKitQ (staleSt (wk 2) ![1, 0])).map (fun r => r.2.h hX) := by rw [e1, e2, hx]
    revert this; decide +kernel

/-- … likewise `lis_gpbicr`. src/solver/lis_solver_gpbicg.c:1349-1553 -/
theorem gpbicr_stale : ∃ (K : Kit ℚ ℚ 2) (o : Opts ℚ ℚ), ¬ IgnoresWork K (lisGpbicr 77 o) := by
  refine ⟨gmKitQ, gmOpts 1 0, fun h => ?_⟩
  rcases h (staleSt (wk 2) ![0, 0]) (staleSt (wk 2) ![1, 0]) rfl rfl rfl with ⟨h, -⟩ | ⟨a, t, t', h1, h2, hx, -⟩
  · revert h; decide +kernel
  · have e1 : ((lisGpbicr 77 (gmOpts 1 0)).run gmKitQ (staleSt (wk 2) ![0, 0])).map (fun r => r.2.h hX) = some (t.h hX) := by
      rw [h1]; rfl
    have e2 : ((lisGpbicr 77 (gmOpts 1 0)).run gmKitQ (staleSt (wk 2) ![1, 0])).map (fun r => r.2.h hX) = some (t'.h hX) := by
      rw [h2]; rfl
    have : ((lisGpbicr 77 (gmOpts 1 0)).run gmKitQ (staleSt (wk 2) ![0, 0])).map (fun r => r.2.h hX) =
      ((lisGpbicr 77 (gmOpts 1 0)).run gmKitQ (staleSt (wk 2) ![1, 0])).map (fun r => r.2.h hX) := by rw [e1, e2, hx]
    revert this; decide +kernel

/-- the theorems above are not empty: with the same two states BiCGSTAB gives the same `x` after one iteration, and it is not
the starting vector -/
example : (((lisBicgstab 77 (gmOpts 1 0)).run gmKitQ (staleSt (wk 2) ![0, 0])).map fun r => r.2.h hX) =
      (((lisBicgstab 77 (gmOpts 1 0)).run gmKitQ (staleSt (wk 2) ![1, 0])).map fun r => r.2.h hX) ∧
    (((lisBicgstab 77 (gmOpts 1 0)).run gmKitQ (staleSt (wk 2) ![0, 0])).map fun r => r.2.h hX) ≠ some 0 := by decide +kernel

/-- rational numbers and a NaN -/
inductive NQ where
  | nan
  | val (q : ℚ)
  deriving DecidableEq

namespace NQ
def lift2 (f : ℚ → ℚ → ℚ) : NQ → NQ → NQ
  | val a, val b => val (f a b)
  | _, _ => nan
instance : Zero NQ := ⟨val 0⟩
instance : One NQ := ⟨val 1⟩
instance : Add NQ := ⟨lift2 (· + ·)⟩
instance : Sub NQ := ⟨lift2 (· - ·)⟩
instance : Mul NQ := ⟨lift2 (· * ·)⟩
instance : Neg NQ := ⟨fun a => match a with
  | val a => val (-a)
  | nan => nan⟩
instance : Div NQ := ⟨fun a b => if b = 0 then nan else lift2 (· / ·) a b⟩
instance : Star NQ := ⟨id⟩
/-- comparisons with a NaN are false -/
def le : NQ → NQ → Bool
  | val a, val b => decide (a ≤ b)
  | _, _ => false
instance : RealOps NQ where
  fabs := fun a => match a with
    | val a => val |a|
    | nan => nan
  le := fun a b => le a b = true
  decLE := fun a b => inferInstanceAs (Decidable (le a b = true))
  decEq := inferInstance
end NQ

/-- the matrix of `gmKitQ`, with NaNs -/
def nanKit : Kit NQ NQ 2 where
  mv := fun v => ![.val 3 * v 0 + v 1, .val 4 * v 0 + .val 2 * v 1]
  mvh := fun v => ![.val 3 * v 0 + .val 4 * v 1, v 0 + .val 2 * v 1]
  ps := id
  psh := id
  ls := id
  rdg := ![.val (1 / 3), .val (1 / 2)]
  dot := fun x y => x 0 * y 0 + x 1 * y 1
  nhdot := fun x y => x 0 * y 0 + x 1 * y 1
  nrm2 := fun v => RealOps.fabs (v 0) + RealOps.fabs (v 1)
  nrm1 := fun v => RealOps.fabs (v 0) + RealOps.fabs (v 1)

def nanSt (v : ℕ) (m : NQ) : MSt NQ NQ 2 :=
  ⟨fun i => if i = hB then ![.val 1, .val 0] else if i = v then ![m, m] else fun _ => .val 0, ⟨9, fun _ => .val (-1)⟩⟩

def nanOpts (maxiter : ℕ) : Opts NQ NQ := ⟨maxiter, true, .nrm2R, true, .val 0, .val 0, none⟩

/-- Finding: `lis_bicgsafe` scales the vector `y` by `eta = 0` in its first iteration instead of clearing it
(src/solver/lis_solver_bicgsafe.c:205-315).  A NaN left there by a run that broke down gets into `x`: every later run with
the same work vectors is lost, although a run on clean vectors solves the system. -/
theorem bicgsafe_stale_nan :
    ((lisBicgsafe (.val 77) (nanOpts 4)).run nanKit (nanSt (wk 8) .nan)).map (fun r => (r.2.h hX 0, r.2.h hX 1)) = some (.nan, .nan) ∧
    ((lisBicgsafe (.val 77) (nanOpts 4)).run nanKit (nanSt (wk 8) (.val 5))).map (fun r => (r.1.ret, r.2.h hX 0, r.2.h hX 1)) =
      some (.success, .val 1, .val (-2)) := by
  decide +kernel

/-- … likewise `lis_bicrsafe`. src/solver/lis_solver_bicgsafe.c:1109-1222 -/
theorem bicrsafe_stale_nan :
    ((lisBicrsafe (.val 77) (nanOpts 4)).run nanKit (nanSt (wk 8) .nan)).map (fun r => (r.2.h hX 0, r.2.h hX 1)) = some (.nan, .nan) ∧
    ((lisBicrsafe (.val 77) (nanOpts 4)).run nanKit (nanSt (wk 8) (.val 5))).map (fun r => (r.1.ret, r.2.h hX 0, r.2.h hX 1)) =
      some (.success, .val 1, .val (-2)) := by
  decide +kernel

/-- BiCGSTAB recovers from a NaN left behind -/
example : ((lisBicgstab (.val 77) (nanOpts 4)).run nanKit (nanSt (wk 4) .nan)).map (fun r => (r.1.ret, r.2.h hX 0, r.2.h hX 1)) =
      some (.success, .val 1, .val (-2)) := by
  decide +kernel

end findings

end Lis
