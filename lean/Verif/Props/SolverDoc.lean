import Verif.Spec.SolverDoc
import Verif.Model.Krylov
import Verif.Props.SolverResidual
import Verif.Props.Orthomin
import Mathlib.Tactic.Linarith
import Mathlib.Tactic.FieldSimp

/-!
# C24: a reported success means the documented convergence condition holds for the returned `x`
-/

namespace Lis
variable {R : Type} {n : ℕ} [CommRing R] [Div R] [Star R] [DecidableEq R]

theorem scaled_le {v r t : ℝ} (hr : 0 ≤ r) (h : v * (if r = 0 then 1 else 1 / r) ≤ t) :
    v ≤ t * (if r = 0 then 1 else r) := by
  split at h
  · rw [if_pos ‹_›]; linarith
  · rw [if_neg ‹_›]
    have : 0 < r := lt_of_le_of_ne hr (Ne.symm ‹_›)
    rw [mul_one_div, div_le_iff₀ this] at h
    exact h

/-- A solver that keeps the status contract and reports the true residual meets the documented condition whenever it
returns `LIS_SUCCESS` (exact arithmetic; tolerances not negative; for `nrm1_b`, `tol ≤ tol_w`, see
`nrm1_initial_too_weak`). -/
theorem meetsTol_of_success {K : Kit R ℝ n} (hlin : K.Linear) (h2 : ∀ v, 0 ≤ K.nrm2 v) (h1 : ∀ v, 0 ≤ K.nrm1 v)
    {o : Opts R ℝ} (ht : 0 ≤ o.tol) (hw : o.conv = .nrm1B → o.tol ≤ o.tolW) {junk : ℝ} {brk : MHeap R n → Prop}
    {s s' : MSt R ℝ n} {out : Out ℝ} (hz : o.initZero → s.h hX = 0)
    (hc : Contract K o junk brk s s' out) (hr : ReportsTrue K o junk s s' out) (hs : out.ret = .success) :
    MeetsTol K o (s.h hB) (s.h hX) (s'.h hX) := by
  have e0 : r0Of K o s.h = fun i => s.h hB i - K.mv (s.h hX) i := r0Of_eq hlin hz
  rcases hc.cases with ⟨hout, hle, hx, -⟩ | ⟨hn, -, -, -, hle, -⟩ | ⟨-, h, -⟩ | ⟨-, h, -⟩
  · have hf : RealOps.fabs o.tol = o.tol := abs_of_nonneg ht
    rw [hf] at hle
    unfold MeetsTol
    rw [hx]
    unfold initialResOf bnrmOf refNorm at hle
    rw [e0] at hle
    cases hcv : o.conv <;> rw [hcv] at hle <;> simp only at hle ⊢
    · have := scaled_le (h2 _) hle
      split at this
      · rename_i h0; rw [h0]; simp
      · exact this
    · exact scaled_le (h2 _) hle
    · have := scaled_le (h1 _) hle
      have hb := h1 (s.h hB)
      have hww := hw hcv
      split at this
      · rename_i h0; rw [h0]; linarith
      · have : o.tol * K.nrm1 (s.h hB) ≤ o.tolW * K.nrm1 (s.h hB) := mul_le_mul_of_nonneg_right hww hb
        linarith
  · rcases hr with ⟨-, -, h, -⟩ | h | ⟨h, -⟩
    · exact absurd h hn
    · rw [h] at hle
      unfold trueRes at hle
      rw [hc.b] at hle
      unfold resOf tolOf bnrmOf refNorm at hle
      rw [e0] at hle
      unfold MeetsTol
      cases hcv : o.conv <;> rw [hcv] at hle <;> simp only at hle ⊢
      · have := scaled_le (h2 _) hle
        split at this
        · rename_i h0
          exfalso
          apply hn
          unfold initialResOf
          rw [hcv, e0]
          simp only
          rw [h0, zero_mul]
          exact abs_nonneg _
        · exact this
      · exact scaled_le (h2 _) hle
      · linarith
    · exact absurd hs h
  · rw [hs] at h; cases h
  · rw [hs] at h; cases h

/-- **C22/C25**: every solver keeps the status contract, for any arithmetic (no law is assumed on scalars, norms, matrix
product or preconditioner, so IEEE arithmetic is covered) -/
theorem krylov_status {R S : Type} {n : ℕ} [Zero R] [One R] [Add R] [Neg R] [Mul R] [Div R] [Sub R] [Star R]
    [DecidableEq R] [RealOps S] (k : Krylov) (K : Kit R S n) (o : Opts R S) (junk : S) (s : MSt R S n)
    (hsz : o.maxiter < s.hist.size) :
    Ok ((k.prog junk o).run K s) fun r => Contract K o junk (k.brk K) s r.2 r.1 := by
  cases k
  case cg => exact lisCg_status K o junk s hsz
  case cocg => exact lisCocg_status K o junk s hsz
  case cr => exact lisCr_status K o junk s hsz
  case cocr => exact lisCocr_status K o junk s hsz
  case bicg => exact lisBicg_status K o junk s hsz
  case bicr => exact lisBicr_status K o junk s hsz
  case cgs => exact lisCgs_status K o junk s hsz
  case crs => exact lisCrs_status K o junk s hsz
  case bicgstab => exact lisBicgstab_status K o junk s hsz
  case bicrstab => exact lisBicrstab_status K o junk s hsz
  case gpbicg => exact lisGpbicg_status K o junk s hsz
  case bicgsafe => exact lisBicgsafe_status K o junk s hsz
  case gpbicr => exact lisGpbicr_status K o junk s hsz
  case bicrsafe => exact lisBicrsafe_status K o junk s hsz
  case orthomin m => exact lisOrthomin_status m K o junk s hsz

/-- **C23/C25**: in exact arithmetic every solver reports the residual of the `x` it returns -/
theorem krylov_residual {S : Type} [RealOps S] (k : Krylov) (K : Kit R S n) (hlin : K.Linear) (o : Opts R S) (junk : S)
    (s : MSt R S n) (hsz : o.maxiter < s.hist.size) (hz : o.initZero → s.h hX = 0) :
    Ok ((k.prog junk o).run K s) fun r => ReportsTrue K o junk s r.2 r.1 := by
  cases k
  case cg => exact lisCg_residual K hlin o junk s hsz hz
  case cocg => exact lisCocg_residual K hlin o junk s hsz hz
  case cr => exact lisCr_residual K hlin o junk s hsz hz
  case cocr => exact lisCocr_residual K hlin o junk s hsz hz
  case bicg => exact lisBicg_residual K hlin o junk s hsz hz
  case bicr => exact lisBicr_residual K hlin o junk s hsz hz
  case cgs => exact lisCgs_residual K hlin o junk s hsz hz
  case crs => exact lisCrs_residual K hlin o junk s hsz hz
  case bicgstab => exact lisBicgstab_residual K hlin o junk s hsz hz
  case bicrstab => exact lisBicrstab_residual K hlin o junk s hsz hz
  case gpbicg => exact lisGpbicg_residual K hlin o junk s hsz hz
  case bicgsafe => exact lisBicgsafe_residual K hlin o junk s hsz hz
  case gpbicr => exact lisGpbicr_residual K hlin o junk s hsz hz
  case bicrsafe => exact lisBicrsafe_residual K hlin o junk s hsz hz
  case orthomin m => exact lisOrthomin_residual m K hlin o junk s hsz hz

/-- **C24**: in exact arithmetic, `LIS_SUCCESS` from any of the solvers means the documented condition holds for the `x`
returned -/
theorem krylov_success_meetsTol (k : Krylov) (K : Kit R ℝ n) (hlin : K.Linear) (h2 : ∀ v, 0 ≤ K.nrm2 v)
    (h1 : ∀ v, 0 ≤ K.nrm1 v) (o : Opts R ℝ) (ht : 0 ≤ o.tol) (hw : o.conv = .nrm1B → o.tol ≤ o.tolW) (junk : ℝ)
    (s : MSt R ℝ n) (hsz : o.maxiter < s.hist.size) (hz : o.initZero → s.h hX = 0) :
    Ok ((k.prog junk o).run K s) fun r => r.1.ret = .success →
      MeetsTol K o (s.h hB) (s.h hX) (r.2.h hX) := by
  obtain ⟨r, hr, hc⟩ := krylov_status k K o junk s hsz
  obtain ⟨r', hr', hc'⟩ := krylov_residual k K hlin o junk s hsz hz
  rw [hr] at hr'
  cases hr'
  exact ⟨r, hr, fun hs => meetsTol_of_success hlin h2 h1 ht hw hz hc hc' hs⟩

end Lis
