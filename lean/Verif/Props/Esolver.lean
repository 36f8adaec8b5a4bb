import Verif.Lemmas.Esolver

/-!
# C38: the contract of the eigensolvers

Arithmetic is arbitrary here (no laws): the statements hold of the floating-point programs.
-/

namespace Lis
variable {R S M : Type} {n : ℕ}
variable [Zero R] [One R] [Add R] [Neg R] [Mul R] [Div R] [Star R] [DecidableEq R] [RealOps S] [EigOps R S]

section helpers
variable {K : EKit R S M n} {o : EOpts R S} {lam : R → R} {Failed : EPt R S M n → Err → M → Prop}
  {Step : EPt R S M n → EPt R S M n → Prop} {X : EPt R S M n → ESt R S M n → Prop}

theorem EIter_test {i : ℕ} {p : EPt R S M n} {a : Arr S} {s2 : ESt R S M n} {theta : R} {resid : S}
    (q : EPt R S M n) (hi : i < a.size) (hs : s2.hist = a) (hL : Step p q) (e1 : q.theta = theta) (e2 : q.resid = resid)
    (e3 : s2.h eV = q.v) (e4 : s2.m = q.m) (hX : ∀ b, X q { s2 with hist := b }) :
    Ok ((eTest o i theta resid lam).run K s2)
      (EIter o Step lam (shiftIf K o (-o.sigma)) (unit K.base) Failed X i p a) := by
  rw [run_eTest K o i theta resid lam s2 (by rw [hs]; exact hi)]
  subst hs
  by_cases h : resid ≤ o.tol
  · rw [if_pos h, Ok_some]
    exact .inl ⟨q, hL, by rw [e2]; exact h, by rw [e2], by rw [e1, e2], by rw [← e3]; simp, by rw [← e4]⟩
  · rw [if_neg h, Ok_some]
    exact ⟨q, hL, by rw [e2]; exact h, by rw [e2], by rw [e1, e2], e3, e4, hX _⟩

theorem eDone_ok (p : EPt R S M n) (st : R × S) (s2 : ESt R S M n) (h : EAt X p st s2) :
    Ok ((eDone o lam (.inl st)).run K s2) fun r =>
      r.1 = ⟨.maxiter, some (o.maxiter, p.resid, lam p.theta)⟩ ∧ r.2.hist = s2.hist ∧
      r.2.h eV = unit K.base p.v ∧ r.2.m = shiftIf K o (-o.sigma) p.m := by
  obtain ⟨rfl, h1, h2, -⟩ := h
  simp only [eDone, EProg.run_bind, run_eNormalize, run_eShiftIf, Option.bind_some, EProg.run_pure, Ok_some]
  exact ⟨trivial, trivial, by simp [h1], by rw [h2]⟩

/-- the initial vector: all ones unless the option asks to use the vector given -/
def eInit (o : EOpts R S) (x : Fin n → R) : Fin n → R := if o.ones then fun _ => 1 else x

theorem run_eInit (s : ESt R S M n) :
    (eStart o : EProg R S Unit).run K s =
      some ((), { s with h := Function.update s.h eV (eInit o (s.h eV)) }) := by
  unfold eStart
  rw [EProg.run_ite]
  unfold eInit
  split
  · rfl
  · simp
end helpers

/-- the points at which `lis_epi`, `lis_eii`, `lis_egpi`, `lis_egii` start: matrix shifted, initial vector -/
def StartShifted (K : EKit R S M n) (o : EOpts R S) (jt : R) (jr : S) (s : ESt R S M n) (p : EPt R S M n) : Prop :=
  p.m = shiftIf K o o.sigma s.m ∧ p.v = eInit o (s.h eV) ∧ p.theta = jt ∧ p.resid = jr

/-- the linear solver fails for right-hand side `rhs p` and matrix `mat p`, which is left as it is -/
def LinFails (K : EKit R S M n) (b : Bool) (mat : EPt R S M n → M) (rhs : EPt R S M n → Fin n → R)
    (p : EPt R S M n) (e : Err) (m : M) : Prop :=
  m = mat p ∧ ∃ y0, (K.lin b m (rhs p) y0).1 = e

/-- **`lis_epi`** -/
theorem lisEpi_contract (K : EKit R S M n) (jt : R) (jr : S) (o : EOpts R S) (s : ESt R S M n)
    (hsz : o.maxiter < s.hist.size) : Ok ((lisEpi jt jr o).run K s) fun r =>
    EContract o (StartShifted K o jt jr s) (PowerStep K) (fun t => t + o.sigma) (shiftIf K o (-o.sigma)) (unit K.base)
      (fun _ _ _ => False) s r.2 r.1 := by
  unfold lisEpi
  rw [EProg.run_bind, run_eInit, Option.bind_some, EProg.run_bind, run_eShiftIf, Option.bind_some]
  refine Ok_eLoop (fun _ _ => True)
    ⟨shiftIf K o o.sigma s.m, jt, jr, eInit o (s.h eV), fun _ => 0⟩ hsz rfl ⟨rfl, rfl, rfl, rfl⟩
    ⟨rfl, by simp, rfl, trivial⟩ ?_ (fun _ _ => rfl) (fun p st s2 h => eDone_ok p st s2 h)
  rintro i p st s2 ⟨rfl, h1, h2, -⟩ hi
  simp only [epiBody, EProg.run_bind, run_eNormalize, run_eMatvec, run_eDot, run_eAxpyz, run_eNrm2, run_eCopy,
    Option.bind_some]
  refine EIter_test ⟨p.m, _, _, K.mv false p.m (unit K.base p.v), fun _ => 0⟩ hi rfl ?_ rfl rfl ?_ h2 (fun _ => trivial)
  · simp [PowerStep, relRes, h1, h2]
  · simp [h1, h2]

/-- **`lis_eii`** -/
theorem lisEii_contract (K : EKit R S M n) (jt : R) (jr : S) (o : EOpts R S) (s : ESt R S M n)
    (hsz : o.maxiter < s.hist.size) : Ok ((lisEii jt jr o).run K s) fun r =>
    EContract o (StartShifted K o jt jr s) (InverseStep K) (fun t => 1 / t + o.sigma) (shiftIf K o (-o.sigma))
      (unit K.base) (LinFails K false (·.m) fun p => unit K.base p.v) s r.2 r.1 := by
  unfold lisEii
  rw [EProg.run_bind, run_eInit, Option.bind_some, EProg.run_bind, run_eShiftIf, Option.bind_some]
  refine Ok_eLoop (fun _ _ => True)
    ⟨shiftIf K o o.sigma s.m, jt, jr, eInit o (s.h eV), fun _ => 0⟩ hsz rfl ⟨rfl, rfl, rfl, rfl⟩
    ⟨rfl, by simp, rfl, trivial⟩ ?_ (fun _ _ => rfl) (fun p st s2 h => eDone_ok p st s2 h)
  rintro i p st s2 ⟨rfl, h1, h2, -⟩ hi
  simp only [eiiBody, EProg.run_bind, run_eNormalize, run_eLin, run_eDot, run_eAxpyz, run_eNrm2, run_eCopy,
    Option.bind_some]
  rw [EProg.run_ite]
  by_cases he : (K.lin false p.m (unit K.base p.v) (s2.h 1)).1 = .success
  · rw [if_neg (by simp [h1, h2, he])]
    simp only [EProg.run_bind, run_eDot, run_eAxpyz, run_eNrm2, run_eCopy, Option.bind_some]
    refine EIter_test ⟨p.m, _, _, (K.lin false p.m (unit K.base p.v) (s2.h 1)).2, fun _ => 0⟩ hi rfl ?_ rfl rfl ?_ h2
      (fun _ => trivial)
    · refine ⟨rfl, ⟨s2.h 1, Prod.ext he rfl⟩, ?_, ?_⟩ <;> simp [relRes, h1, h2]
    · simp [h1, h2]
  · rw [if_pos (by simp [h1, h2, he]), EProg.run_pure, Ok_some]
    refine .inr ⟨rfl, by simp [h1, h2, he], ⟨h2, s2.h 1, ?_⟩, rfl⟩
    simp [h1, h2]

/-- **`lis_egpi`** -/
theorem lisEgpi_contract (K : EKit R S M n) (jt : R) (jr : S) (o : EOpts R S) (s : ESt R S M n)
    (hsz : o.maxiter < s.hist.size) : Ok ((lisEgpi jt jr o).run K s) fun r =>
    EContract o (StartShifted K o jt jr s) (GenPowerStep K) (fun t => t + o.sigma) (shiftIf K o (-o.sigma))
      (unit K.base) (LinFails K true (·.m) fun p => (genScale K false p.m p.v false).2) s r.2 r.1 := by
  unfold lisEgpi
  rw [EProg.run_bind, run_eInit, Option.bind_some, EProg.run_bind, run_eShiftIf, Option.bind_some]
  refine Ok_eLoop (fun _ _ => True)
    ⟨shiftIf K o o.sigma s.m, jt, jr, eInit o (s.h eV), fun _ => 0⟩ hsz rfl ⟨rfl, rfl, rfl, rfl⟩
    ⟨rfl, by simp, rfl, trivial⟩ ?_ (fun _ _ => rfl) (fun p st s2 h => eDone_ok p st s2 h)
  rintro i p st s2 ⟨rfl, h1, h2, -⟩ hi
  simp only [egpiBody, EProg.run_bind, run_eNormalize, run_eLin, run_eDot, run_eAxpyz, run_eNrm2, run_eCopy, run_eScale,
    run_eMatvec, Option.bind_some]
  rw [EProg.run_ite]
  by_cases he : (K.lin true p.m (genScale K false p.m p.v false).2 (s2.h 2)).1 = .success
  · rw [if_neg (by simpa [h1, h2, genScale] using he)]
    simp only [EProg.run_bind, run_eDot, run_eAxpyz, run_eNrm2, run_eCopy, Option.bind_some]
    refine EIter_test ⟨p.m, _, _, (K.lin true p.m (genScale K false p.m p.v false).2 (s2.h 2)).2, fun _ => 0⟩
      hi rfl ?_ rfl rfl ?_ h2 (fun _ => trivial)
    · refine ⟨rfl, ⟨s2.h 2, Prod.ext he rfl⟩, ?_, ?_⟩ <;> simp [relRes, h1, h2, genScale]
    · simp [h1, h2, genScale]
  · rw [if_pos (by simpa [h1, h2, genScale] using he), EProg.run_pure, Ok_some]
    refine .inr ⟨rfl, by simpa [h1, h2, genScale] using he, ⟨h2, s2.h 2, ?_⟩, rfl⟩
    simp [h1, h2, genScale]

/-- **`lis_egii`** -/
theorem lisEgii_contract (K : EKit R S M n) (jt : R) (jr : S) (o : EOpts R S) (s : ESt R S M n)
    (hsz : o.maxiter < s.hist.size) : Ok ((lisEgii jt jr o).run K s) fun r =>
    EContract o (StartShifted K o jt jr s) (GenInverseStep K) (fun t => 1 / t + o.sigma) (shiftIf K o (-o.sigma))
      (unit K.base) (LinFails K false (·.m) fun p => (genScale K true p.m p.v true).2) s r.2 r.1 := by
  unfold lisEgii
  rw [EProg.run_bind, run_eInit, Option.bind_some, EProg.run_bind, run_eShiftIf, Option.bind_some]
  refine Ok_eLoop (fun _ _ => True)
    ⟨shiftIf K o o.sigma s.m, jt, jr, eInit o (s.h eV), fun _ => 0⟩ hsz rfl ⟨rfl, rfl, rfl, rfl⟩
    ⟨rfl, by simp, rfl, trivial⟩ ?_ (fun _ _ => rfl) (fun p st s2 h => eDone_ok p st s2 h)
  rintro i p st s2 ⟨rfl, h1, h2, -⟩ hi
  simp only [egiiBody, EProg.run_bind, run_eNormalize, run_eLin, run_eDot, run_eAxpyz, run_eNrm2, run_eCopy, run_eScale,
    run_eMatvec, Option.bind_some]
  rw [EProg.run_ite]
  by_cases he : (K.lin false p.m (genScale K true p.m p.v true).2 (s2.h 2)).1 = .success
  · rw [if_neg (by simpa [h1, h2, genScale] using he)]
    simp only [EProg.run_bind, run_eDot, run_eAxpyz, run_eNrm2, run_eCopy, Option.bind_some]
    refine EIter_test ⟨p.m, _, _, (K.lin false p.m (genScale K true p.m p.v true).2 (s2.h 2)).2, fun _ => 0⟩
      hi rfl ?_ rfl rfl ?_ h2 (fun _ => trivial)
    · refine ⟨rfl, ⟨s2.h 2, Prod.ext he rfl⟩, ?_, ?_⟩ <;> simp [relRes, h1, h2, genScale]
    · simp [h1, h2, genScale]
  · rw [if_pos (by simpa [h1, h2, genScale] using he), EProg.run_pure, Ok_some]
    refine .inr ⟨rfl, by simpa [h1, h2, genScale] using he, ⟨h2, s2.h 2, ?_⟩, rfl⟩
    simp [h1, h2, genScale]

/-- the point at which `lis_erqi` starts: the matrix as given, the normalized initial vector and its Rayleigh quotient -/
def StartRayleigh (K : EKit R S M n) (o : EOpts R S) (jr : S) (s : ESt R S M n) (p : EPt R S M n) : Prop :=
  p.m = s.m ∧ p.v = unit K.base (eInit o (s.h eV)) ∧ p.theta = K.base.dot p.v (K.mv false s.m p.v) ∧ p.resid = jr

/-- the point at which `lis_egrqi` starts -/
def StartGenRayleigh (K : EKit R S M n) (o : EOpts R S) (jr : S) (s : ESt R S M n) (p : EPt R S M n) : Prop :=
  p.m = s.m ∧ p.v = unit K.base (eInit o (s.h eV)) ∧ p.w = K.mv true s.m p.v ∧
  p.theta = K.base.dot p.w (K.mv false s.m p.v) / K.base.dot p.w p.w ∧ p.resid = jr

/-- the point `RayleighStep` leads to -/
private def rqNext (K : EKit R S M n) (p : EPt R S M n) (y : Fin n → R) : EPt R S M n :=
  ⟨K.shift (-p.theta) (K.shift p.theta p.m),
    p.theta + K.base.dot p.v y / (EigOps.ofS (K.base.nrm2 y) * EigOps.ofS (K.base.nrm2 y)),
    relRes K.base (K.base.dot p.v y) p.v y, smulV (1 / EigOps.ofS (K.base.nrm2 y)) y, fun _ => 0⟩

/-- the point `GenRayleighStep` leads to -/
private def grqNext (K : EKit R S M n) (p : EPt R S M n) (y : Fin n → R) : EPt R S M n :=
  let m := K.shift (-p.theta) (K.shift p.theta p.m)
  let z := K.mv true m y
  let eta : R := EigOps.sqrt S (K.base.dot z y)
  ⟨m, p.theta + K.base.dot p.w y / (eta * eta), 1 / EigOps.fabs (K.base.dot p.w y), smulV (1 / eta) y,
    smulV (1 / eta) z⟩

/-- **`lis_erqi`**. On an error of the linear solver the matrix stays shifted. -/
theorem lisErqi_contract (K : EKit R S M n) (jr : S) (o : EOpts R S) (s : ESt R S M n)
    (hsz : o.maxiter < s.hist.size) : Ok ((lisErqi jr o).run K s) fun r =>
    EContract o (StartRayleigh K o jr s) (RayleighStep K) (fun t => t) (fun m => m) (unit K.base)
      (LinFails K false (fun p => K.shift p.theta p.m) (·.v)) s r.2 r.1 := by
  unfold lisErqi
  rw [EProg.run_bind, run_eInit, Option.bind_some, EProg.run_bind, run_eNormalize, Option.bind_some,
    EProg.run_bind, run_eMatvec, Option.bind_some, EProg.run_bind, run_eDot, Option.bind_some]
  refine Ok_eLoop (fun _ _ => True)
    ⟨s.m, K.base.dot (unit K.base (eInit o (s.h eV))) (K.mv false s.m (unit K.base (eInit o (s.h eV)))), jr,
      unit K.base (eInit o (s.h eV)), fun _ => 0⟩ hsz rfl ⟨rfl, rfl, rfl, rfl⟩
    ⟨by simp, by simp, rfl, trivial⟩ ?_ (fun _ _ => rfl) ?_
  · rintro i p st s2 ⟨rfl, h1, h2, -⟩ hi
    simp only [erqiBody, EProg.run_bind, run_eShift, run_eLin, Option.bind_some]
    rw [EProg.run_ite]
    by_cases he : (K.lin false (K.shift p.theta p.m) p.v (s2.h 1)).1 = .success
    · rw [if_neg (by simp [h1, h2, he])]
      simp only [EProg.run_bind, run_eDot, run_eAxpyz, run_eNrm2, run_eCopy, run_eScale, run_eShift, Option.bind_some]
      rw [run_eRecord _ _ _ _ _ (by exact hi), Option.bind_some, EProg.run_ite]
      generalize hy : (K.lin false (K.shift p.theta p.m) p.v (s2.h 1)).2 = y
      have hstep : RayleighStep K p (rqNext K p y) := ⟨rfl, s2.h 1, y, Prod.ext he hy, rfl, rfl, rfl⟩
      split
      · rename_i ht
        rw [EProg.run_bind, run_eNormalize, Option.bind_some, EProg.run_pure, Ok_some]
        refine .inl ⟨_, hstep, ?_, ?_, ?_, ?_, ?_⟩
        · simpa [h1, h2, hy, rqNext, relRes] using ht
        · simp [h1, h2, hy, rqNext, relRes]
        · simp [h1, h2, hy, rqNext, relRes]
        · simp [h1, h2, hy, rqNext]
        · simp [h2, rqNext]
      · rename_i ht
        rw [EProg.run_pure, Ok_some]
        refine ⟨_, hstep, ?_, ?_, ?_, ?_, ?_, trivial⟩
        · simpa [h1, h2, hy, rqNext, relRes] using ht
        · simp [h1, h2, hy, rqNext, relRes]
        · simp [h1, h2, hy, rqNext, relRes]
        · simp [h1, h2, hy, rqNext]
        · simp [h2, rqNext]
    · rw [if_pos (by simp [h1, h2, he]), EProg.run_pure, Ok_some]
      refine .inr ⟨rfl, by simp [h1, h2, he], ⟨by simp [h2], s2.h 1, ?_⟩, rfl⟩
      simp [h1, h2]
  · rintro p st s2 ⟨rfl, h1, h2, -⟩
    simp only [EProg.run_bind, run_eNormalize, Option.bind_some, EProg.run_pure, Ok_some]
    exact ⟨trivial, trivial, by simp [h1], h2⟩

/-- **`lis_egrqi`**. On an error of the linear solver the matrix stays shifted. -/
theorem lisEgrqi_contract (K : EKit R S M n) (jr : S) (o : EOpts R S) (s : ESt R S M n)
    (hsz : o.maxiter < s.hist.size) : Ok ((lisEgrqi jr o).run K s) fun r =>
    EContract o (StartGenRayleigh K o jr s) (GenRayleighStep K) (fun t => t) (fun m => m) (unit K.base)
      (LinFails K false (fun p => K.shift p.theta p.m) (·.w)) s r.2 r.1 := by
  unfold lisEgrqi
  rw [EProg.run_bind, run_eInit, Option.bind_some, EProg.run_bind, run_eNormalize, Option.bind_some,
    EProg.run_bind, run_eMatvec, Option.bind_some, EProg.run_bind, run_eMatvec, Option.bind_some,
    EProg.run_bind, run_eDot, Option.bind_some, EProg.run_bind, run_eDot, Option.bind_some]
  refine Ok_eLoop (fun p s => s.h 1 = p.w)
    ⟨s.m, K.base.dot (K.mv true s.m (unit K.base (eInit o (s.h eV)))) (K.mv false s.m (unit K.base (eInit o (s.h eV)))) /
      K.base.dot (K.mv true s.m (unit K.base (eInit o (s.h eV)))) (K.mv true s.m (unit K.base (eInit o (s.h eV)))), jr,
      unit K.base (eInit o (s.h eV)), K.mv true s.m (unit K.base (eInit o (s.h eV)))⟩ hsz rfl
    ⟨rfl, rfl, rfl, rfl, rfl⟩
    ⟨by simp, by simp, rfl, by simp⟩ ?_ (fun _ _ => rfl) ?_
  · rintro i p st s2 ⟨rfl, h1, h2, h3⟩ hi
    simp only [egrqiBody, EProg.run_bind, run_eShift, run_eLin, Option.bind_some]
    rw [EProg.run_ite]
    by_cases he : (K.lin false (K.shift p.theta p.m) p.w (s2.h 2)).1 = .success
    · rw [if_neg (by simp [h3, h2, he])]
      simp only [EProg.run_bind, run_eDot, run_eAxpyz, run_eNrm2, run_eCopy, run_eScale, run_eShift, run_eMatvec,
        Option.bind_some]
      rw [run_eRecord _ _ _ _ _ (by exact hi), Option.bind_some, EProg.run_ite]
      generalize hy : (K.lin false (K.shift p.theta p.m) p.w (s2.h 2)).2 = y
      have hstep : GenRayleighStep K p (grqNext K p y) := ⟨rfl, s2.h 2, y, Prod.ext he hy, rfl, rfl, rfl, rfl⟩
      split
      · rename_i ht
        rw [EProg.run_bind, run_eNormalize, Option.bind_some, EProg.run_pure, Ok_some]
        refine .inl ⟨_, hstep, ?_, ?_, ?_, ?_, ?_⟩
        · simpa [h3, h2, hy, grqNext] using ht
        · simp [h3, h2, hy, grqNext]
        · simp [h3, h2, hy, grqNext]
        · simp [h3, h2, hy, grqNext]
        · simp [h2, grqNext]
      · rename_i ht
        rw [EProg.run_pure, Ok_some]
        refine ⟨_, hstep, ?_, ?_, ?_, ?_, ?_, ?_⟩
        · simpa [h3, h2, hy, grqNext] using ht
        · simp [h3, h2, hy, grqNext]
        · simp [h3, h2, hy, grqNext]
        · simp [h3, h2, hy, grqNext]
        · simp [h2, grqNext]
        · simp [h3, h2, hy, grqNext]
    · rw [if_pos (by simp [h3, h2, he]), EProg.run_pure, Ok_some]
      refine .inr ⟨rfl, by simp [h3, h2, he], ⟨by simp [h2], s2.h 2, ?_⟩, rfl⟩
      simp [h3, h2]
  · rintro p st s2 ⟨rfl, h1, h2, -⟩
    simp only [EProg.run_bind, run_eNormalize, Option.bind_some, EProg.run_pure, Ok_some]
    exact ⟨trivial, trivial, by simp [h1], h2⟩

end Lis
