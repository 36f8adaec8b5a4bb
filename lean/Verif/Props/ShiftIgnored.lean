import Verif.Lemmas.Esolver
import Verif.Props.MatOps
import Verif.Props.EsolverExact
import Verif.Props.EsolverFindings
import Mathlib.Algebra.Field.Basic

/-
C63: what the generalized power and inverse iterations report when `lis_matrix_shift_matrix` leaves `A`
as it is (which it does for every storage format of `A` but CSR, `shiftMatrix_ignored`).
-/
namespace Lis
variable {R S M : Type} {n : ℕ}

/-- the same result with `sigma` added to the eigenvalue -/
def EOut.plus [Add R] (sigma : R) (o : EOut R S) : EOut R S := ⟨o.ret, o.res.map fun q => (q.1, q.2.1, q.2.2 + sigma)⟩

/-- `f` and `g` run alike up to `φ` on the results -/
theorem run_rel [Add R] [Mul R] [Star R] (K : EKit R S M n) {α β : Type} {φ : β → β} (p : EProg R S α)
    {f g : α → EProg R S β} (s : ESt R S M n)
    (h : ∀ a s, (f a).run K s = ((g a).run K s).map fun r => (φ r.1, r.2)) :
    (p >>= f).run K s = ((p >>= g).run K s).map fun r => (φ r.1, r.2) := by
  rw [EProg.run_bind, EProg.run_bind, Option.map_bind]
  congr 1
  funext r
  exact h _ _

theorem run_eFor_rel [Add R] [Mul R] [Star R] (K : EKit R S M n) {σ : Type} {φ : EOut R S → EOut R S}
    {b1 b2 : ℕ → σ → EProg R S (σ ⊕ EOut R S)}
    (h : ∀ i s st, (b1 i s).run K st = ((b2 i s).run K st).map fun r => (Sum.map id φ r.1, r.2)) :
    ∀ k i s st, (eFor b1 k i s).run K st = ((eFor b2 k i s).run K st).map fun r => (Sum.map id φ r.1, r.2)
  | 0, _, _, _ => rfl
  | k + 1, i, s, st => by
    unfold eFor
    rw [EProg.run_bind, EProg.run_bind, h, Option.map_bind, Option.bind_map]
    congr 1
    funext r
    rcases r with ⟨r | r, st'⟩
    · exact run_eFor_rel K h k (i + 1) r st'
    · rfl

section
variable [Field R] [DecidableEq R] [Star R] [RealOps S] [EigOps R S]

/-- the options without a shift -/
def EOpts.unshifted (o : EOpts R S) : EOpts R S := { o with shift := 0, ishift := 0 }

theorem unshifted_sigma (o : EOpts R S) : o.unshifted.sigma = 0 := by simp [EOpts.sigma, EOpts.unshifted]

variable (K : EKit R S M n) (hK : ∀ a m, K.shift a m = m)
include hK

theorem run_eShiftIf_id (o : EOpts R S) (a : R) (s : ESt R S M n) : (eShiftIf o a).run K s = some ((), s) := by
  unfold eShiftIf
  split
  · rfl
  · change some ((), ({ s with m := K.shift a s.m } : ESt R S M n)) = _
    rw [hK]

theorem run_eTest_rel (o : EOpts R S) (i : ℕ) (t : R) (r : S) (lam lam' : R → R) (hl : ∀ t, lam t = lam' t + o.sigma)
    (s : ESt R S M n) : (eTest o i t r lam).run K s =
      ((eTest o.unshifted i t r lam').run K s).map fun r => (Sum.map id (EOut.plus o.sigma) r.1, r.2) := by
  unfold eTest
  refine run_rel K (eRecord o i r) s fun _ s => ?_
  change (if r ≤ o.tol then _ else _ : EProg R S _).run K s = ((if r ≤ o.tol then _ else _ : EProg R S _).run K s).map _
  split
  · refine run_rel K _ s fun _ s => ?_
    rw [EProg.run_bind, EProg.run_bind, run_eShiftIf_id K hK, run_eShiftIf_id K hK, hl]
    rfl
  · rfl

theorem run_eDone_rel (o : EOpts R S) (lam lam' : R → R) (hl : ∀ t, lam t = lam' t + o.sigma)
    (r : (R × S) ⊕ EOut R S) (s : ESt R S M n) : (eDone o lam (Sum.map id (EOut.plus o.sigma) r)).run K s =
      ((eDone o.unshifted lam' r).run K s).map fun r => (EOut.plus o.sigma r.1, r.2) := by
  rcases r with ⟨t, q⟩ | r
  · refine run_rel K _ s fun _ s => ?_
    rw [EProg.run_bind, EProg.run_bind, run_eShiftIf_id K hK, run_eShiftIf_id K hK, hl]
    rfl
  · rfl

theorem run_shell_rel (o : EOpts R S) (body : EOpts R S → ℕ → R × S → EProg R S ((R × S) ⊕ EOut R S))
    (lam lam' : R → R) (hl : ∀ t, lam t = lam' t + o.sigma)
    (hb : ∀ i s st, (body o i s).run K st =
      ((body o.unshifted i s).run K st).map fun r => (Sum.map id (EOut.plus o.sigma) r.1, r.2))
    (x : R × S) (s : ESt R S M n) :
    (do eStart o; eShiftIf o o.sigma; let r ← eFor (body o) o.maxiter 1 x; eDone o lam r : EProg R S _).run K s =
      ((do eStart o.unshifted; eShiftIf o.unshifted o.unshifted.sigma
           let r ← eFor (body o.unshifted) o.maxiter 1 x; eDone o.unshifted lam' r : EProg R S _).run K s).map
        fun r => (EOut.plus o.sigma r.1, r.2) := by
  refine run_rel K (eStart o) s fun _ s => ?_
  rw [EProg.run_bind, EProg.run_bind, run_eShiftIf_id K hK, run_eShiftIf_id K hK, Option.bind_some, Option.bind_some,
    EProg.run_bind, EProg.run_bind, run_eFor_rel K hb, Option.map_bind, Option.bind_map]
  congr 1
  funext r
  exact run_eDone_rel K hK o lam lam' hl r.1 r.2

/-- **C63 (finding).** `lis_egpi` when the shift of the matrix has no effect: the same run, the same vectors
and history as without a shift, and the eigenvalue of the unshifted problem plus the shift is reported. -/
theorem lisEgpi_shiftIgnored (jt : R) (jr : S) (o : EOpts R S) (s : ESt R S M n) :
    (lisEgpi jt jr o).run K s =
      ((lisEgpi jt jr { o with shift := 0, ishift := 0 }).run K s).map fun r => (r.1.plus o.sigma, r.2) := by
  refine run_shell_rel K hK o egpiBody _ _ (fun t => ?_) (fun i x st => ?_) (jt, jr) s
  · change t + o.sigma = t + o.unshifted.sigma + o.sigma
    rw [unshifted_sigma, add_zero]
  · unfold egpiBody
    refine run_rel K _ _ fun _ _ => run_rel K _ _ fun _ _ => run_rel K _ _ fun _ _ => run_rel K _ _ fun _ _ =>
      run_rel K _ _ fun _ _ => run_rel K _ _ fun err _ => ?_
    split
    · rfl
    · refine run_rel K _ _ fun _ _ => run_rel K _ _ fun _ _ => run_rel K _ _ fun _ _ => run_rel K _ _ fun _ s => ?_
      refine run_eTest_rel K hK o i _ _ _ _ (fun t => ?_) s
      rw [unshifted_sigma, add_zero]

/-- **C63 (finding).** The same for `lis_egii`: the reported eigenvalue is `1/theta + sigma`, `1/theta`
being the eigenvalue of the pencil itself. -/
theorem lisEgii_shiftIgnored (jt : R) (jr : S) (o : EOpts R S) (s : ESt R S M n) :
    (lisEgii jt jr o).run K s =
      ((lisEgii jt jr { o with shift := 0, ishift := 0 }).run K s).map fun r => (r.1.plus o.sigma, r.2) := by
  refine run_shell_rel K hK o egiiBody _ _ (fun t => ?_) (fun i x st => ?_) (jt, jr) s
  · change 1 / t + o.sigma = 1 / t + o.unshifted.sigma + o.sigma
    rw [unshifted_sigma, add_zero]
  · unfold egiiBody
    refine run_rel K _ _ fun _ _ => run_rel K _ _ fun _ _ => run_rel K _ _ fun _ _ => run_rel K _ _ fun _ _ =>
      run_rel K _ _ fun _ _ => run_rel K _ _ fun err _ => ?_
    split
    · rfl
    · refine run_rel K _ _ fun _ _ => run_rel K _ _ fun _ _ => run_rel K _ _ fun _ _ => run_rel K _ _ fun _ s => ?_
      refine run_eTest_rel K hK o i _ _ _ _ (fun t => ?_) s
      rw [unshifted_sigma, add_zero]
end

/-- a concrete case: two-dimensional pencil with the shift ignored, shift 5 asked for -/
example (lin : Matrix (Fin 2) (Fin 2) ℝ → (Fin 2 → ℝ) → Err × (Fin 2 → ℝ)) (s : ESt ℝ ℝ (Matrix (Fin 2) (Fin 2) ℝ) 2) :
    (lisEgpi 0 0 { demoEOpts with shift := 5 }).run { demoEKit lin with shift := fun _ m => m } s =
      ((lisEgpi 0 0 demoEOpts).run { demoEKit lin with shift := fun _ m => m } s).map fun r => (r.1.plus 5, r.2) := by
  have h := lisEgpi_shiftIgnored { demoEKit lin with shift := fun _ m => m } (fun _ _ => rfl) 0 0
    { demoEOpts with shift := 5 } s
  have h5 : ({ demoEOpts with shift := 5 } : EOpts ℝ ℝ).sigma = 5 := by simp [EOpts.sigma, demoEOpts]
  rw [h5] at h
  exact h

end Lis
