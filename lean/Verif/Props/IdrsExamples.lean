import Verif.Props.Idr1
import Verif.Props.SolverExamples

/-!
# C24 and findings for lis_idrs, lis_idr1
-/

namespace Lis

section doc
variable {R : Type} {n : ℕ} [CommRing R] [Div R] [Star R] [DecidableEq R]

omit [Div R] [Star R] [DecidableEq R] in
theorem ContractLast.toContract {K : Kit R ℝ n} {o : Opts R ℝ} {last : ℕ} {s s' : MSt R ℝ n} {out : Out ℝ}
    (h : ContractLast K o last s s' out) (hs : out.ret = .success) :
    Contract K { o with maxiter := last } 0 (fun _ => False) s s' out := by
  refine ⟨h.b, h.size, h.hist, h.fails, ?_⟩
  rcases h.cases with h | h | ⟨-, h, -⟩
  · exact .inl h
  · exact .inr (.inl h)
  · rw [hs] at h; cases h

/-- **C24/C25**: `LIS_SUCCESS` from `lis_idrs` means the documented condition holds for the `x` returned -/
theorem lisIdrs_success_meetsTol (m : ℕ) (hm : 1 ≤ m) (J : ℕ → R) (jom : R) (toR : ℝ → R) (rnd : ℕ → ℕ → R)
    (K : Kit R ℝ n) (hlin : K.Linear) (h2 : ∀ v, 0 ≤ K.nrm2 v) (h1 : ∀ v, 0 ≤ K.nrm1 v) (o : Opts R ℝ) (ht : 0 ≤ o.tol)
    (hw : o.conv = .nrm1B → o.tol ≤ o.tolW) (junk : ℝ) (s : MSt R ℝ n) (hsz : max m (o.maxiter + 1) < s.hist.size)
    (hz : o.initZero → s.h hX = 0) :
    Ok ((lisIdrs m J junk jom toR rnd o).run K s) fun r => r.1.ret = .success →
      MeetsTol K o (s.h hB) (s.h hX) (r.2.h hX) := by
  obtain ⟨r, hr, hc⟩ := lisIdrs_status m hm J junk jom toR rnd K o s hsz
  obtain ⟨r', hr', hc'⟩ := lisIdrs_residual m hm J junk jom toR rnd K hlin o s hsz hz
  rw [hr] at hr'
  cases hr'
  refine ⟨r, hr, fun hs => ?_⟩
  refine meetsTol_of_success (o := { o with maxiter := max m (o.maxiter + 1) }) hlin h2 h1 ht hw hz (hc.toContract hs) ?_ hs
  rcases hc' with h | h | ⟨h, -⟩
  · exact .inl h
  · exact .inr (.inl h)
  · exact absurd hs h

/-- **C24/C25**: the same for `lis_idr1` -/
theorem lisIdr1_success_meetsTol (toR : ℝ → R) (rnd : ℕ → R) (K : Kit R ℝ n) (hlin : K.Linear)
    (h2 : ∀ v, 0 ≤ K.nrm2 v) (h1 : ∀ v, 0 ≤ K.nrm1 v) (o : Opts R ℝ) (ht : 0 ≤ o.tol)
    (hw : o.conv = .nrm1B → o.tol ≤ o.tolW) (s : MSt R ℝ n) (hsz : 2 * ((o.maxiter + 1) / 2) + 1 < s.hist.size)
    (hz : o.initZero → s.h hX = 0) :
    Ok ((lisIdr1 toR rnd o).run K s) fun r => r.1.ret = .success →
      MeetsTol K o (s.h hB) (s.h hX) (r.2.h hX) := by
  obtain ⟨r, hr, hc⟩ := lisIdr1_status toR rnd K o s hsz
  obtain ⟨r', hr', hc'⟩ := lisIdr1_residual toR rnd K hlin o 0 s hsz hz
  rw [hr] at hr'
  cases hr'
  refine ⟨r, hr, fun hs => ?_⟩
  refine meetsTol_of_success (o := { o with maxiter := 2 * ((o.maxiter + 1) / 2) + 1 }) hlin h2 h1 ht hw hz
    (hc.toContract hs) ?_ hs
  rcases hc' with h | h | ⟨h, -⟩
  · exact .inl h
  · exact .inr (.inl h)
  · exact absurd hs h

end doc

/-- Finding: `-irestart 0` is not rejected (`lis_idrs_check_params` tests nothing) and makes `lis_idrs` use vectors that
do not exist, unless the initial guess is already good enough. src/solver/lis_solver_idrs.c:60-65, 82, 565-567 -/
theorem lisIdrs_zero_undefined {R S : Type} {n : ℕ} [Zero R] [One R] [Add R] [Neg R] [Mul R] [Div R] [Sub R] [Star R]
    [DecidableEq R] [RealOps S] (J : ℕ → R) (junk : S) (jom : R) (toR : S → R) (rnd : ℕ → ℕ → R)
    (K : Kit R S n) (o : Opts R S) (s : MSt R S n) (h : ¬ initialResOf K o s.h ≤ RealOps.fabs o.tol) :
    (lisIdrs 0 J junk jom toR rnd o).run K s = none := by
  unfold lisIdrs
  simp only [Prog.run_bind, run_initialResidual K o (wk 0) (by decide) (by decide), Option.bind_some, if_neg h]
  simp [pfor, idrsOrth, idrsDots, forIter, idrsBody, Prog.run_bind, Prog.run_pure, Prog.run]

section runs
attribute [local instance] starRingOfComm ratReal

/-- `lis_idrs` with `s = 1, 2` converges on the example system … -/
example : ((lisIdrs (R := ℚ) (S := ℚ) 1 (fun _ => 5) 77 88 id (fun _ j => (j : ℚ) + 1) (demoOpts 5)).run demoKit
    ⟨(demoState ![1, 0]).h, ⟨7, fun _ => -1⟩⟩).map (fun r => (r.1.ret, r.1.iter, r.1.resid)) = some (Err.success, 4, 0) := by decide +kernel
example : ((lisIdrs (R := ℚ) (S := ℚ) 2 (fun _ => 5) 77 88 id (fun k j => (k * k + j + 1 : ℕ)) (demoOpts 5)).run demoKit
    ⟨(demoState ![1, 0]).h, ⟨7, fun _ => -1⟩⟩).map (fun r => (r.1.ret, r.1.iter, r.1.resid)) = some (Err.success, 3, 0) := by decide +kernel
/-- … and `lis_idr1` … -/
example : ((lisIdr1 (R := ℚ) (S := ℚ) id (fun j => (j : ℚ) + 1) (demoOpts 5)).run demoKit
    ⟨(demoState ![1, 0]).h, ⟨7, fun _ => -1⟩⟩).map (fun r => (r.1.ret, r.1.iter, r.1.resid)) = some (Err.success, 4, 0) := by decide +kernel
/-- … or they run out of iterations -/
example : ((lisIdr1 (R := ℚ) (S := ℚ) id (fun j => (j : ℚ) + 1) (demoOpts 1)).run demoKit
    ⟨(demoState ![1, 0]).h, ⟨4, fun _ => -1⟩⟩).map (fun r => (r.1.ret, r.1.iter)) = some (Err.maxiter, 3) := by decide +kernel

/-- Finding: the residual history has `maxiter + 2` elements (src/solver/lis_solver.c:596); the first `s` steps of
`lis_idrs` are made whatever `maxiter` is, so with `s > maxiter + 1` and `LIS_PRINT_MEM` it is written outside. -/
theorem lisIdrs_rhistory_overflow : ∃ (K : Kit ℚ ℚ 2) (o : Opts ℚ ℚ) (s : MSt ℚ ℚ 2),
    s.hist.size = o.maxiter + 2 ∧ o.mem = true ∧
      (lisIdrs (R := ℚ) (S := ℚ) 3 (fun _ => 0) 77 88 id (fun k j => (k * k + j + 1 : ℕ)) o).run K s = none :=
  ⟨demoKit, demoOpts 1, ⟨(demoState ![1, 0]).h, ⟨3, fun _ => -1⟩⟩, rfl, rfl, by decide +kernel⟩

/-- Finding: `lis_idr1` makes two iterations per pass and tests `maxiter` only before a pass: with an odd `maxiter` it
writes `rhistory[maxiter+2]`, outside the array of `maxiter + 2` elements. -/
theorem lisIdr1_rhistory_overflow : ∃ (K : Kit ℚ ℚ 2) (o : Opts ℚ ℚ) (s : MSt ℚ ℚ 2),
    s.hist.size = o.maxiter + 2 ∧ o.mem = true ∧ (lisIdr1 (R := ℚ) (S := ℚ) id (fun j => (j : ℚ) + 1) o).run K s = none :=
  ⟨demoKit, demoOpts 1, ⟨(demoState ![1, 0]).h, ⟨3, fun _ => -1⟩⟩, rfl, rfl, by decide +kernel⟩

end runs
end Lis
