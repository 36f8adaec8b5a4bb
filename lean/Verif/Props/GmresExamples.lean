import Verif.Props.GmresRes
import Verif.Props.SolverDoc
import Verif.Props.BicgstablExamples

/-!
# C24 and findings for lis_gmres, lis_fgmres
-/

namespace Lis

section doc
variable {n : ℕ}

/-- **C24/C25**: with `nrm2_r` or `nrm2_b`, `LIS_SUCCESS` from `lis_gmres` means that the documented condition holds for
the `x` returned (nonsingular `A M⁻¹`, exact arithmetic) -/
theorem lisGmres_success_meetsTol (tiny : ℝ) (m : ℕ) (hm : 1 ≤ m) (junk : ℝ) (K : Kit ℝ ℝ n) (hK : K.Euclid)
    (hK1 : ∀ v, 0 ≤ K.nrm1 v) (hK0 : K.nrm1 0 = 0)
    (hlin : K.Linear) (hps : K.PsLinear) (hinj : ∀ x, K.mv (K.ps x) = 0 → x = 0) (o : Opts ℝ ℝ) (s : MSt ℝ ℝ n)
    (hcv : o.conv ≠ .nrm1B) (hz : o.initZero = true → s.h hX = 0) (ht : 0 ≤ o.tol) (hsz : o.maxiter < s.hist.size) :
    Ok ((lisGmres (gmReal tiny) m junk o).run K s) fun r => r.1.ret = .success →
      MeetsTol K o (s.h hB) (s.h hX) (r.2.h hX) := by
  have htl : tolOf K o s.h = o.tol := by
    unfold tolOf
    cases h : o.conv <;> simp_all
  obtain ⟨r, hr, hc⟩ := lisGmres_status (gmReal tiny) m hm junk K o s hsz
  obtain ⟨r', hr', hc'⟩ := lisGmres_residual tiny m hm junk K hK hK0 hlin hps hinj o s hz (by rw [htl]; exact ht) hsz
  rw [hr] at hr'
  cases hr'
  refine ⟨r, hr, fun hs => ?_⟩
  refine meetsTol_of_success hlin (fun v => by rw [hK.nrm2]; exact Real.sqrt_nonneg _) hK1 ht (fun h => absurd h hcv) hz hc ?_ hs
  rcases hc' with h | h | ⟨h, -⟩
  · exact .inl h
  · refine .inr (.inl ?_)
    rw [h]
    unfold resOf
    cases h : o.conv <;> simp_all
  · rw [hs] at h; cases h

/-- **C24/C25**: `LIS_SUCCESS` from `lis_fgmres` means that the test before the first iteration held, or that
`‖b - A x‖₂ ≤ tol` -- not relative to a norm of `r0` or `b` -/
theorem lisFgmres_success_absolute (tiny : ℝ) (m : ℕ) (hm : 1 ≤ m) (junk : ℝ) (K : Kit ℝ ℝ n) (hK : K.Euclid)
    (hlin : K.Linear) (hps : K.PsLinear) (hinj : ∀ x, K.mv (K.ps x) = 0 → x = 0) (o : Opts ℝ ℝ) (s : MSt ℝ ℝ n)
    (hcv : o.conv = .nrm2R ∨ (o.conv = .nrm2B ∧ r0Of K o s.h = s.h hB))
    (hz : o.initZero = true → s.h hX = 0) (ht : 0 ≤ o.tol) (hsz : o.maxiter < s.hist.size) :
    Ok ((lisFgmres (gmReal tiny) m hm junk o).run K s) fun r => r.1.ret = .success →
      (initialResOf K o s.h ≤ o.tol ∧ r.2.h hX = s.h hX) ∨
      K.nrm2 (fun i => s.h hB i - K.mv (r.2.h hX) i) ≤ o.tol := by
  obtain ⟨r, hr, hc⟩ := lisFgmres_status (gmReal tiny) m hm junk K o s hsz
  obtain ⟨r', hr', hc'⟩ := lisFgmres_residual tiny m hm junk K hK hlin hps hinj o s hcv hz ht hsz
  rw [hr] at hr'
  cases hr'
  refine ⟨r, hr, fun hs => ?_⟩
  have hf : RealOps.fabs o.tol = o.tol := abs_of_nonneg ht
  have htl : tolOf K o s.h = o.tol := by
    unfold tolOf
    rcases hcv with h | ⟨h, -⟩ <;> rw [h]
  rcases hc.cases with ⟨hout, hle, hx, -⟩ | ⟨hn, -, -, -, hle, -⟩ | ⟨-, h, -⟩ | ⟨-, h, -⟩
  · exact .inl ⟨by rw [hf] at hle; exact hle, hx⟩
  · rw [htl] at hle
    rcases hc' with ⟨-, -, h, -⟩ | h | ⟨h, -⟩
    · exact absurd h hn
    · right
      have : trueRes K r.2.h = fun i => s.h hB i - K.mv (r.2.h hX) i := by unfold trueRes; rw [hc.b]
      rw [← this, ← h]
      exact hle
    · rw [hs] at h; cases h
  · rw [hs] at h; cases h
  · rw [hs] at h; cases h

/-- the hypotheses are met: `A = [[3,1],[4,2]]`, no preconditioner -/
noncomputable def gmKit : Kit ℝ ℝ 2 where
  mv := fun v => ![3 * v 0 + v 1, 4 * v 0 + 2 * v 1]
  mvh := fun v => ![3 * v 0 + 4 * v 1, v 0 + 2 * v 1]
  ps := id
  psh := id
  ls := id
  rdg := ![1 / 3, 1 / 2]
  dot := fun x y => x ⬝ᵥ y
  nhdot := fun x y => x ⬝ᵥ y
  nrm2 := fun v => Real.sqrt (v ⬝ᵥ v)
  nrm1 := fun v => |v 0| + |v 1|

example : gmKit.Euclid ∧ gmKit.Linear ∧ gmKit.PsLinear ∧ gmKit.nrm1 0 = 0 ∧ (∀ v, 0 ≤ gmKit.nrm1 v) ∧
    ∀ x, gmKit.mv (gmKit.ps x) = 0 → x = 0 := by
  refine ⟨⟨fun _ _ => rfl, fun _ => rfl⟩, ?_, fun _ _ _ => rfl, by simp [gmKit], fun v => by simp only [gmKit]; positivity, ?_⟩
  · intro a x y
    funext i
    fin_cases i <;> simp [gmKit] <;> ring
  · intro x hx
    have h0 := congrFun hx 0
    have h1 := congrFun hx 1
    simp [gmKit] at h0 h1
    funext i
    fin_cases i
    · show x 0 = 0; linarith
    · show x 1 = 0; linarith

end doc

section runs
attribute [local instance] starRingOfComm ratReal

/-- exact on squares -/
def sqrtQ (q : ℚ) : ℚ := (Nat.sqrt q.num.toNat : ℚ) / (Nat.sqrt q.den : ℚ)
def gmRat : GmFns ℚ ℚ := ⟨id, sqrtQ, abs, 1 / 10 ^ 17⟩
/-- `A = [[3,1],[4,2]]`; all square roots below are exact -/
def gmKitQ : Kit ℚ ℚ 2 where
  mv := fun v => ![3 * v 0 + v 1, 4 * v 0 + 2 * v 1]
  mvh := fun v => ![3 * v 0 + 4 * v 1, v 0 + 2 * v 1]
  ps := id
  psh := id
  ls := id
  rdg := ![1 / 3, 1 / 2]
  dot := fun x y => x 0 * y 0 + x 1 * y 1
  nhdot := fun x y => x 0 * y 0 + x 1 * y 1
  nrm2 := fun v => sqrtQ (v 0 * v 0 + v 1 * v 1)
  nrm1 := fun v => |v 0| + |v 1|

def gmOpts (k : ℕ) (tol : ℚ) : Opts ℚ ℚ := ⟨k, true, .nrm2R, true, tol, 0, none⟩
def gmState (b : ℚ) : MSt ℚ ℚ 2 := ⟨fun v => if v = hB then ![b, 0] else 0, ⟨9, fun _ => -1⟩⟩

/-- both solvers find the solution `(1,-2)` of `A x = (1,0)` in two iterations, … -/
example : ((lisGmres (R := ℚ) (S := ℚ) gmRat 4 77 (gmOpts 5 0)).run gmKitQ (gmState 1)).map
    (fun r => (r.1, r.2.h hX, r.2.hist.get 1, r.2.hist.get 2)) = some (⟨.success, 2, 0⟩, ![1, -2], 4 / 5, 0) := by decide +kernel
example : ((lisFgmres (R := ℚ) (S := ℚ) gmRat 4 (by decide) 77 (gmOpts 5 0)).run gmKitQ (gmState 1)).map
    (fun r => (r.1, r.2.h hX, r.2.hist.get 1, r.2.hist.get 2)) = some (⟨.success, 2, 0⟩, ![1, -2], 4 / 5, 0) := by decide +kernel
/-- … with restart 1 and one iteration the residual is 4/5. -/
example : ((lisGmres (R := ℚ) (S := ℚ) gmRat 1 77 (gmOpts 1 0)).run gmKitQ (gmState 1)).map
    (fun r => (r.1, r.2.h hX, r.2.h (gmV 0), trueRes gmKitQ r.2.h)) =
    some (⟨.maxiter, 2, 4 / 5⟩, ![3 / 25, 0], ![16 / 25, -12 / 25], ![16 / 25, -12 / 25]) := by decide +kernel
example : ((lisFgmres (R := ℚ) (S := ℚ) gmRat 1 (by decide) 77 (gmOpts 1 0)).run gmKitQ (gmState 1)).map
    (fun r => (r.1, r.2.h hX, r.2.h (fgV 1 0), trueRes gmKitQ r.2.h)) =
    some (⟨.maxiter, 2, 4 / 5⟩, ![3 / 25, 0], ![16 / 25, -12 / 25], ![16 / 25, -12 / 25]) := by decide +kernel
/-- … with `maxiter = 0` the uninitialised residual is reported. -/
example : ((lisGmres (R := ℚ) (S := ℚ) gmRat 1 77 (gmOpts 0 0)).run gmKitQ (gmState 1)).map Prod.fst = some ⟨.maxiter, 1, 77⟩ := by
  decide +kernel

/-- Finding: `lis_fgmres` compares the absolute residual with the relative tolerance.  With `b = (10⁻⁶, 0)` and
`tol = 10⁻³` (`nrm2_r`) it returns `LIS_SUCCESS` after one iteration although `‖b - A x‖ = 0.8 ‖b‖`.
src/solver/lis_solver_gmres.c:1248-1256 -/
theorem lisFgmres_false_success : ∃ (K : Kit ℚ ℚ 2) (o : Opts ℚ ℚ) (s : MSt ℚ ℚ 2), o.conv = .nrm2R ∧ s.h hX = 0 ∧
    ((lisFgmres (R := ℚ) (S := ℚ) gmRat 4 (by decide) 77 o).run K s).map (fun r => (decide (r.1.ret = .success),
      decide (K.nrm2 (trueRes K r.2.h) = 4 / 5 * K.nrm2 (s.h hB)), o.tol)) = some (true, true, 1 / 1000) :=
  ⟨gmKitQ, gmOpts 5 (1 / 1000), gmState (1 / 1000000), rfl, rfl, by decide +kernel⟩

/-- Finding: `lis_gmres` with a zero matrix returns `LIS_SUCCESS` with residual 0 although `A x = b` has no solution:
with `rr = 0` the new right-hand side entry is `-0/1e-17 * s = 0`. src/solver/lis_solver_gmres.c:252-265 -/
theorem lisGmres_singular_false_success : ∃ (K : Kit ℚ ℚ 2) (o : Opts ℚ ℚ) (s : MSt ℚ ℚ 2), s.h hB = ![1, 0] ∧
    (∀ x, K.mv x = 0) ∧
    ((lisGmres (R := ℚ) (S := ℚ) gmRat 4 77 o).run K s).map Prod.fst = some ⟨.success, 1, 0⟩ :=
  ⟨{ gmKitQ with mv := fun _ => 0 }, gmOpts 5 (1 / 1000), gmState 1, rfl, fun _ => rfl, by decide +kernel⟩

/-- Finding: `-restart 0` is accepted (`lis_gmres_check_params` refuses only negative values), and `s->value[1]` is then
outside the vector `s` of one element. src/solver/lis_solver_gmres.c:64-69, 256 -/
theorem lisGmres_restart0_undefined : ∃ (K : Kit ℚ ℚ 2) (o : Opts ℚ ℚ) (s : MSt ℚ ℚ 2), o.maxiter + 2 ≤ s.hist.size ∧
    (lisGmres (R := ℚ) (S := ℚ) gmRat 0 77 o).run K s = none :=
  ⟨gmKitQ, gmOpts 5 0, gmState 1, by decide, by decide +kernel⟩

/-- Finding: with `nrm1_b` `lis_gmres` compares `‖r‖₂ / ‖b‖₁` with the tolerance `tol_w ‖b‖₁ + tol` meant for `‖r‖₁`:
`b = (10,0)`, `tol_w = 1/10`, `tol = 0`: `LIS_SUCCESS` after one iteration with `‖b - A x‖₁ = 11.2`, the documented bound
being 1 (`‖r‖₂/‖b‖₁ = 0.8`). src/solver/lis_solver_gmres.c:264, 273 -/
theorem lisGmres_nrm1_false_success : ∃ (K : Kit ℚ ℚ 2) (o : Opts ℚ ℚ) (s : MSt ℚ ℚ 2), o.conv = .nrm1B ∧ s.h hX = 0 ∧
    ((lisGmres (R := ℚ) (S := ℚ) gmRat 4 77 o).run K s).map (fun r => (decide (r.1.ret = .success),
      K.nrm1 (trueRes K r.2.h), K.nrm1 (s.h hB) * o.tolW + o.tol)) = some (true, 56 / 5, 1) :=
  ⟨gmKitQ, ⟨5, true, .nrm1B, true, 0, 1 / 10, none⟩, gmState 10, rfl, rfl, by decide +kernel⟩

end runs
end Lis
