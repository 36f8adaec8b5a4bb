import Verif.Spec.EsolverCg
import Verif.Props.Esolver

namespace Lis
variable {R S M : Type} {n : ℕ}

section run
variable [Add R] [Mul R] [Star R] (K : EKit R S M n)
@[simp] theorem run_eAxpy (a : R) (x y : ℕ) (s : ESt R S M n) : ((eAxpy a x y) : EProg R S Unit).run K s =
    some ((), { s with h := Function.update s.h y (axpyV a (s.h x) (s.h y)) }) := rfl
@[simp] theorem run_eXpay (x : ℕ) (a : R) (y : ℕ) (s : ESt R S M n) : ((eXpay x a y) : EProg R S Unit).run K s =
    some ((), { s with h := Function.update s.h y (xpayV (s.h x) a (s.h y)) }) := rfl
@[simp] theorem run_ePsolve (x y : ℕ) (h : x ≠ y) (s : ESt R S M n) :
    ((ePsolve x y h) : EProg R S Unit).run K s =
    some ((), { s with h := Function.update s.h y (K.base.ps (s.h x)) }) := rfl
theorem run_eAxpyz' (a : R) (x y z : ℕ) (s : ESt R S M n) : ((eAxpyz a x y z) : EProg R S Unit).run K s =
    some ((), { s with h := Function.update s.h z (axpyzV a (s.h x) (s.h y)) }) := rfl
end run

variable [Zero R] [One R] [Add R] [Neg R] [Sub R] [Mul R] [Div R] [Star R] [DecidableEq R] [RealOps S] [EigOps R S]

omit [Zero R] [One R] [Neg R] [Sub R] [Div R] [DecidableEq R] [RealOps S] [EigOps R S] in
/-- the loop `eWhile` when every iteration is the step `f` -/
theorem Ok_eWhile {K : EKit R S M n} {lt : S → S → Bool} {o : EOpts R S}
    {body : ℕ → R × S → EProg R S (Bool × (R × S))} (f : CPt R S n → CPt R S n)
    (At : CPt R S n → R × S → ESt R S M n → Prop) (q0 : CPt R S n) (s0 : ESt R S M n)
    (hsz : o.maxiter < s0.hist.size)
    (hb : ∀ i q st s, At q st s → i < s.hist.size → Ok ((body i st).run K s) fun r =>
      r.1.1 = lt (f q).resid o.tol ∧ At (f q) r.1.2 r.2 ∧ r.2.hist = ERec o i (f q).resid s.hist) :
    ∀ (k i : ℕ) (st : R × S) (s : ESt R S M n), i + k = o.maxiter → At (f^[i] q0) st s →
      (∀ j, 1 ≤ j → j ≤ i → lt (f^[j] q0).resid o.tol = false) → s.hist.size = s0.hist.size →
      (o.mem = true → ∀ j, 1 ≤ j → j ≤ i → s.hist.get j = (f^[j] q0).resid) →
      (∀ j, (o.mem = false ∨ j = 0 ∨ i < j) → s.hist.get j = s0.hist.get j) →
      Ok ((eWhile body k i st).run K s) fun r => At (f^[r.1.1] q0) r.1.2 r.2 ∧
        Stops lt o (fun j => (f^[j] q0).resid) s0.hist r.2.hist r.1.1 := by
  intro k
  induction k with
  | zero =>
    intro i st s hi hA h1 h2 h3 h4
    simp only [eWhile, EProg.run_pure, Ok_some]
    exact ⟨hA, by omega, fun j j1 j2 => h1 j j1 (by omega), fun h => by omega, h2, h3, h4⟩
  | succ k ih =>
    intro i st s hi hA h1 h2 h3 h4
    simp only [eWhile, EProg.run_bind, Ok_obind]
    refine (hb (i + 1) _ st s hA (by omega)).mono ?_
    rintro ⟨⟨b, st'⟩, s'⟩ ⟨e1, e2, e3⟩
    simp only at e1 e2 e3 ⊢
    rw [← Function.iterate_succ_apply' f i q0] at e1 e2 e3
    obtain ⟨g1, g2, g3, g4⟩ := ERec_facts (o := o) (i := i + 1) (v := (f^[i + 1] q0).resid) (by omega) h2
      (fun j hj => h4 j (by simpa using hj))
    rw [← e3] at g1 g2 g3 g4
    have hrec : o.mem = true → ∀ j, 1 ≤ j → j ≤ i + 1 → s'.hist.get j = (f^[j] q0).resid := by
      intro hm j j1 j2
      by_cases hj : j = i + 1
      · rw [hj]; exact g3 hm
      · rw [g4 j (by omega)]; exact h3 hm j j1 (by omega)
    rw [EProg.run_ite]
    cases b with
    | true =>
      simp only [if_true, EProg.run_pure, Ok_some]
      exact ⟨e2, by omega, fun j j1 j2 => h1 j j1 (by omega), fun _ => ⟨by omega, e1.symm⟩, g1, hrec, g2⟩
    | false =>
      simp only [Bool.false_eq_true, if_false]
      refine ih (i + 1) st' s' (by omega) e2 (fun j j1 j2 => ?_) g1 hrec g2
      by_cases hj : j = i + 1
      · rw [hj]; exact e1.symm
      · exact h1 j j1 (by omega)

omit [Neg R] in
theorem run_cgDone [Neg R] (K : EKit R S M n) (lt : S → S → Bool) (o : EOpts R S) (i : ℕ) (l : R) (v : S) (s : ESt R S M n) :
    (cgDone lt o i l v).run K s = some (⟨if lt v o.tol then .success else .maxiter, some (i, v, l + o.sigma)⟩,
      { s with m := shiftIf K o (-o.sigma) s.m }) := by
  unfold cgDone
  rw [EProg.run_bind, run_eShiftIf]; rfl

/-- the machine of `lis_ecr` is at `q` -/
def CrAt (m : M) (q : CPt R S n) (st : R × S) (s : ESt R S M n) : Prop :=
  st = (q.lam, q.resid) ∧ s.m = m ∧ s.h 0 = q.x ∧ s.h 1 = q.r ∧ s.h 2 = q.p ∧ s.h 4 = q.Ax ∧ s.h 5 = q.Ap

/-- the machine of `lis_egcr` is at `q` -/
def GcrAt (m : M) (q : CPt R S n) (st : R × S) (s : ESt R S M n) : Prop :=
  CrAt m q st s ∧ s.h 7 = q.Bx ∧ s.h 8 = q.Bp

theorem ecrBody_ok (K : EKit R S M n) (lt : S → S → Bool) (o : EOpts R S) (m : M) (i : ℕ) (q : CPt R S n) (st : R × S)
    (s : ESt R S M n) (h : CrAt m q st s) (hi : i < s.hist.size) :
    Ok ((ecrBody lt o i st).run K s) fun r => r.1.1 = lt (crStep K m q).resid o.tol ∧ CrAt m (crStep K m q) r.1.2 r.2 ∧
      r.2.hist = ERec o i (crStep K m q).resid s.hist := by
  obtain ⟨rfl, rfl, h0, h1, h2, h4, h5⟩ := h
  unfold ecrBody
  simp [EProg.run_bind, -run_eAxpyz, run_eAxpyz', h0, h1, h2, h4, h5, crDen, run_eRecord, hi, CrAt, crStep]

theorem egcrBody_ok (K : EKit R S M n) (lt : S → S → Bool) (o : EOpts R S) (m : M) (i : ℕ) (q : CPt R S n) (st : R × S)
    (s : ESt R S M n) (h : GcrAt m q st s) (hi : i < s.hist.size) :
    Ok ((egcrBody lt o i st).run K s) fun r => r.1.1 = lt (gcrStep K m q).resid o.tol ∧ GcrAt m (gcrStep K m q) r.1.2 r.2 ∧
      r.2.hist = ERec o i (gcrStep K m q).resid s.hist := by
  obtain ⟨⟨rfl, rfl, h0, h1, h2, h4, h5⟩, h7, h8⟩ := h
  unfold egcrBody
  simp [EProg.run_bind, -run_eAxpyz, run_eAxpyz', h0, h1, h2, h4, h5, h7, h8, crDen, run_eRecord, hi, CrAt, GcrAt, gcrStep]

/-- the machine of `lis_ecg` is at `q` -/
def CgAt (m : M) (q : CPt R S n) (st : R × S) (s : ESt R S M n) : Prop :=
  st = (q.lam, q.resid) ∧ s.m = m ∧ s.h 0 = q.x ∧ s.h 3 = q.p ∧ s.h 4 = q.Ax ∧ s.h 6 = q.Ap

/-- the machine of `lis_egcg` is at `q` -/
def GcgAt (m : M) (q : CPt R S n) (st : R × S) (s : ESt R S M n) : Prop :=
  CgAt m q st s ∧ s.h 7 = q.Bx ∧ s.h 9 = q.Bp

theorem ecgBody_ok (K : EKit R S M n) (rr : Arr R → Arr R → R × R × R) (lt : S → S → Bool) (o : EOpts R S) (m : M) (i : ℕ)
    (q : CPt R S n) (st : R × S) (s : ESt R S M n) (h : CgAt m q st s) (hi : i < s.hist.size) :
    Ok ((ecgBody rr lt o i st).run K s) fun r => r.1.1 = lt (cgStep rr lt o.tol K m q).resid o.tol ∧
      CgAt m (cgStep rr lt o.tol K m q) r.1.2 r.2 ∧ r.2.hist = ERec o i (cgStep rr lt o.tol K m q).resid s.hist := by
  obtain ⟨rfl, rfl, h0, h3, h4, h6⟩ := h
  unfold ecgBody
  simp only [EProg.run_bind, run_eDot, Option.bind_some, run_eAxpyz', run_eNrm2, Ok_obind]
  rw [run_eRecord _ _ _ _ _ (by simpa using hi)]
  simp only [Ok_some, EProg.run_ite]
  by_cases hc : lt (K.base.nrm2 (axpyzV (-1 / K.base.dot q.x q.Ax) q.Ax q.x)) o.tol = true
  · simp [h0, h3, h4, h6, hc, CgAt, cgStep]
  · simp [EProg.run_bind, cgUpdate, cgRescale, h0, h3, h4, h6, hc, CgAt, cgStep]

theorem egcgBody_ok (K : EKit R S M n) (rr : Arr R → Arr R → R × R × R) (lt : S → S → Bool) (o : EOpts R S) (m : M) (i : ℕ)
    (q : CPt R S n) (st : R × S) (s : ESt R S M n) (h : GcgAt m q st s) (hi : i < s.hist.size) :
    Ok ((egcgBody rr lt o i st).run K s) fun r => r.1.1 = lt (gcgStep rr lt o.tol K m q).resid o.tol ∧
      GcgAt m (gcgStep rr lt o.tol K m q) r.1.2 r.2 ∧ r.2.hist = ERec o i (gcgStep rr lt o.tol K m q).resid s.hist := by
  obtain ⟨⟨rfl, rfl, h0, h3, h4, h6⟩, h7, h9⟩ := h
  unfold egcgBody
  simp only [EProg.run_bind, run_eDot, Option.bind_some, run_eAxpyz', run_eNrm2, Ok_obind]
  rw [run_eRecord _ _ _ _ _ (by simpa using hi)]
  simp only [Ok_some, EProg.run_ite]
  by_cases hc : lt (K.base.nrm2 (axpyzV (-1 / (K.base.dot q.Ax q.Bx / K.base.dot q.Bx q.Bx)) q.Ax q.Bx)) o.tol = true
  · simp [h0, h3, h4, h6, h7, h9, hc, CgAt, GcgAt, gcgStep]
  · simp [EProg.run_bind, cgUpdate, cgRescale, h0, h3, h4, h6, h7, h9, hc, CgAt, GcgAt, gcgStep]

end Lis
