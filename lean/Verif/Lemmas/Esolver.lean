import Verif.Spec.Esolver
import Verif.Props.Machine

namespace Lis
variable {R S M : Type} {n : ℕ}

section refine
variable [Zero R] [Add R] [Mul R] [Star R] [Zero S] [Add S] {M' : Type}

/-- array-level calls implement the mathematical ones, for matrices related by `rel` -/
structure AEKit.Implements (A : AEKit R S M') (K : EKit R S M n) (rel : M' → M → Prop) : Prop where
  kit : ∀ b m' m, rel m' m → (A.kit b m').Implements (K.kit b m)
  shift : ∀ a m' m, rel m' m → Ok (A.shift a m') fun r => rel r (K.shift a m)
  lin : ∀ b m' m x y (h : Vecs R), rel m' m → x ≠ y → h.Good n → Ok (A.lin b m' x y h) fun r =>
    r.2.Good n ∧ r.1 = (K.lin b m (h.vecs n x) (h.vecs n y)).1 ∧
    r.2.vecs n = Function.update (h.vecs n) y (K.lin b m (h.vecs n x) (h.vecs n y)).2

/-- **Refinement** for eigensolvers. -/
theorem EProg.exec_refines {A : AEKit R S M'} {K : EKit R S M n} {rel : M' → M → Prop} (hA : A.Implements K rel)
    {α : Type} (p : EProg R S α) {Q : α → ESt R S M n → Prop} : ∀ {m' : M'} {m : M} {h : Vecs R} {hist : Arr S},
    rel m' m → h.Good n →
    Ok (p.run K ⟨m, h.vecs n, hist⟩) (fun r => Q r.1 r.2) →
    Ok (p.exec A ⟨m', h, hist⟩) fun r => r.2.h.Good n ∧
      ∃ m2, rel r.2.m m2 ∧ Q r.1 ⟨m2, r.2.h.vecs n, r.2.hist⟩ := by
  induction p with
  | ret a => rintro m' m h hist hm hg ⟨r, hr, hq⟩; cases hr; exact ⟨_, rfl, hg, m, hm, hq⟩
  | vop b o k ih =>
    intro m' m h hist hm hg hq
    unfold EProg.exec
    rw [Ok_obind]
    refine (VOp.exec_refines (hA.kit b m' m hm) o hg).mono ?_
    rintro h' ⟨g', e⟩
    refine ih hm g' ?_
    rw [e]; exact hq
  | red o k ih =>
    intro m' m h hist hm hg hq
    unfold EProg.exec
    simp only
    rw [(hA.kit false m' m hm).red o h hg]
    exact ih _ hm hg hq
  | norm o k ih =>
    intro m' m h hist hm hg hq
    unfold EProg.exec
    simp only
    rw [(hA.kit false m' m hm).norm o h hg]
    exact ih _ hm hg hq
  | hist i v k ih =>
    intro m' m h hist hm hg hq
    unfold EProg.exec
    rw [Ok_obind]
    unfold EProg.run at hq
    rw [Ok_obind] at hq
    exact hq.mono fun a ha => ih hm hg ha
  | shift a k ih =>
    intro m' m h hist hm hg hq
    unfold EProg.exec
    rw [Ok_obind]
    refine (hA.shift a m' m hm).mono fun r hr => ?_
    exact ih hr hg hq
  | lin b x y hxy k ih =>
    intro m' m h hist hm hg hq
    unfold EProg.exec
    rw [Ok_obind]
    refine (hA.lin b m' m x y h hm hxy hg).mono ?_
    rintro r ⟨g1, g2, g3⟩
    refine ih _ hm g1 ?_
    rw [g2, g3]; exact hq

end refine

section run
variable [Add R] [Mul R] [Star R] (K : EKit R S M n) {α β : Type}

@[simp] theorem EProg.run_bind (p : EProg R S α) (f : α → EProg R S β) (s : ESt R S M n) :
    (p >>= f).run K s = (p.run K s).bind fun r => (f r.1).run K r.2 := by
  change (EProg.bind p f).run K s = _
  induction p generalizing s with
  | ret a => rfl
  | vop m o k ih => exact ih _
  | red o k ih => exact ih _ _
  | norm o k ih => exact ih _ _
  | hist i v k ih =>
    simp only [EProg.bind, EProg.run, Option.bind_assoc]
    congr 1
    funext a
    exact ih _
  | shift a k ih => exact ih _
  | lin m x y h k ih => exact ih _ _

@[simp] theorem EProg.run_pure (a : α) (s : ESt R S M n) : (pure a : EProg R S α).run K s = some (a, s) := rfl
@[simp] theorem run_eCopy (x y : ℕ) (s : ESt R S M n) : ((eCopy x y) : EProg R S Unit).run K s =
    some ((), { s with h := Function.update s.h y (s.h x) }) := rfl
@[simp] theorem run_eAxpyz (a : R) (x y z : ℕ) (s : ESt R S M n) : ((eAxpyz a x y z) : EProg R S Unit).run K s =
    some ((), { s with h := Function.update s.h z fun i => a * s.h x i + s.h y i }) := rfl
@[simp] theorem run_eScale (a : R) (x : ℕ) (s : ESt R S M n) : ((eScale a x) : EProg R S Unit).run K s =
    some ((), { s with h := Function.update s.h x (smulV a (s.h x)) }) := rfl
@[simp] theorem run_eSetAll (a : R) (x : ℕ) (s : ESt R S M n) : ((eSetAll a x) : EProg R S Unit).run K s =
    some ((), { s with h := Function.update s.h x fun _ => a }) := rfl
@[simp] theorem run_eMatvec (b : Bool) (x y : ℕ) (h : x ≠ y) (s : ESt R S M n) :
    ((eMatvec b x y h) : EProg R S Unit).run K s =
    some ((), { s with h := Function.update s.h y (K.mv b s.m (s.h x)) }) := rfl
@[simp] theorem run_eDot (x y : ℕ) (s : ESt R S M n) : (eDot x y : EProg R S R).run K s =
    some (K.base.dot (s.h x) (s.h y), s) := rfl
@[simp] theorem run_eNrm2 (x : ℕ) (s : ESt R S M n) : (eNrm2 x : EProg R S S).run K s =
    some (K.base.nrm2 (s.h x), s) := rfl
@[simp] theorem run_eShift (a : R) (s : ESt R S M n) : (eShift a : EProg R S Unit).run K s =
    some ((), { s with m := K.shift a s.m }) := rfl
@[simp] theorem run_eLin (b : Bool) (x y : ℕ) (h : x ≠ y) (s : ESt R S M n) : (eLin b x y h : EProg R S Err).run K s =
    some ((K.lin b s.m (s.h x) (s.h y)).1,
      { s with h := Function.update s.h y (K.lin b s.m (s.h x) (s.h y)).2 }) := rfl
theorem run_eHist (i : ℕ) (v : S) (s : ESt R S M n) (hi : i < s.hist.size) :
    (eHist i v : EProg R S Unit).run K s = some ((), { s with hist := s.hist.set i v }) := by
  simp [eHist, EProg.run, Arr.wr, hi]
theorem EProg.run_ite (c : Prop) [Decidable c] (p q : EProg R S α) (s : ESt R S M n) :
    (if c then p else q).run K s = if c then p.run K s else q.run K s := by split <;> rfl
end run

variable [Zero R] [One R] [Add R] [Neg R] [Mul R] [Div R] [Star R] [DecidableEq R] [RealOps S] [EigOps R S]

/-- `hist` after an iteration that recorded `v` -/
def ERec (o : EOpts R S) (i : ℕ) (v : S) (a : Arr S) : Arr S := if o.mem then a.set i v else a

/-- the matrix after shifting (or not) by `a` -/
def shiftIf (K : EKit R S M n) (o : EOpts R S) (a : R) (m : M) : M := if o.sigma = 0 then m else K.shift a m

@[simp] theorem run_eNormalize (K : EKit R S M n) (v : ℕ) (s : ESt R S M n) :
    (eNormalize v : EProg R S Unit).run K s = some ((), { s with h := Function.update s.h v (unit K.base (s.h v)) }) :=
  rfl

@[simp] theorem run_eShiftIf (K : EKit R S M n) (o : EOpts R S) (a : R) (s : ESt R S M n) :
    (eShiftIf o a : EProg R S Unit).run K s = some ((), { s with m := shiftIf K o a s.m }) := by
  unfold eShiftIf shiftIf
  rw [EProg.run_ite]
  split <;> rfl

theorem run_eRecord (K : EKit R S M n) (o : EOpts R S) (i : ℕ) (v : S) (s : ESt R S M n) (hi : i < s.hist.size) :
    (eRecord o i v : EProg R S Unit).run K s = some ((), { s with hist := ERec o i v s.hist }) := by
  unfold eRecord ERec
  rw [EProg.run_ite]
  split
  · exact run_eHist K i v s hi
  · rfl

theorem run_eTest (K : EKit R S M n) (o : EOpts R S) (i : ℕ) (theta : R) (resid : S) (lam : R → R) (s : ESt R S M n)
    (hi : i < s.hist.size) :
    (eTest o i theta resid lam).run K s = if resid ≤ o.tol then
      some (.inr ⟨.success, some (i, resid, lam theta)⟩,
        ⟨shiftIf K o (-o.sigma) s.m, Function.update s.h eV (unit K.base (s.h eV)), ERec o i resid s.hist⟩)
      else some (.inl (theta, resid), { s with hist := ERec o i resid s.hist }) := by
  unfold eTest
  rw [EProg.run_bind, run_eRecord K o i resid s hi, Option.bind_some, EProg.run_ite]
  split
  · rw [EProg.run_bind, run_eNormalize, Option.bind_some, EProg.run_bind, run_eShiftIf]; rfl
  · rfl

/-- the machine is at the point `p` -/
def EAt (X : EPt R S M n → ESt R S M n → Prop) (p : EPt R S M n) (st : R × S) (s : ESt R S M n) : Prop :=
  st = (p.theta, p.resid) ∧ s.h eV = p.v ∧ s.m = p.m ∧ X p s

/-- what one iteration does from the point `p` -/
def EIter (o : EOpts R S) (Step : EPt R S M n → EPt R S M n → Prop) (lam : R → R) (fin : M → M)
    (nrm : (Fin n → R) → (Fin n → R)) (Failed : EPt R S M n → Err → M → Prop) (X : EPt R S M n → ESt R S M n → Prop)
    (i : ℕ) (p : EPt R S M n) (a : Arr S) : ((R × S) ⊕ EOut R S) × ESt R S M n → Prop
  | (.inl st, s') => ∃ q, Step p q ∧ ¬ q.resid ≤ o.tol ∧ s'.hist = ERec o i q.resid a ∧ EAt X q st s'
  | (.inr out, s') =>
    (∃ q, Step p q ∧ q.resid ≤ o.tol ∧ s'.hist = ERec o i q.resid a ∧
      out = ⟨.success, some (i, q.resid, lam q.theta)⟩ ∧ s'.h eV = nrm q.v ∧ s'.m = fin q.m) ∨
    (out.res = none ∧ out.ret ≠ .success ∧ Failed p out.ret s'.m ∧ s'.hist = a)

/-- the points so far: `k` iterations made -/
structure EInv (o : EOpts R S) (Start : EPt R S M n → Prop) (Step : EPt R S M n → EPt R S M n → Prop) (a0 : Arr S)
    (x : ℕ → EPt R S M n) (k : ℕ) (a : Arr S) : Prop where
  size : a.size = a0.size
  out : ∀ j, (o.mem = false ∨ j = 0 ∨ k < j) → a.get j = a0.get j
  start : Start (x 0)
  step : ∀ j, j < k → Step (x j) (x (j + 1))
  fails : ∀ j, 1 ≤ j → j ≤ k → ¬ (x j).resid ≤ o.tol
  rec_ : o.mem → ∀ j, 1 ≤ j → j ≤ k → a.get j = (x j).resid

omit [Zero R] [One R] [Neg R] [Div R] [DecidableEq R] [RealOps S] [EigOps R S] in
theorem Ok_eFor {K : EKit R S M n} {σ : Type} {body : ℕ → σ → EProg R S (σ ⊕ EOut R S)}
    (I : ℕ → σ → ESt R S M n → Prop) {Q : (σ ⊕ EOut R S) × ESt R S M n → Prop} :
    ∀ (k i : ℕ) (st : σ) (s : ESt R S M n), I i st s →
      (∀ j st s, i ≤ j → j < i + k → I j st s → Ok ((body j st).run K s) fun r =>
        match r.1 with
        | .inl st' => I (j + 1) st' r.2
        | .inr out => Q (.inr out, r.2)) →
      (∀ st s, I (i + k) st s → Q (.inl st, s)) →
      Ok ((eFor body k i st).run K s) Q := by
  intro k
  induction k with
  | zero => intro i st s hI hb hq; simpa [eFor] using hq st s hI
  | succ k ih =>
    intro i st s hI hb hq
    simp only [eFor, EProg.run_bind, Ok_obind]
    obtain ⟨⟨r, s'⟩, hr, h⟩ := hb i st s (by omega) (by omega) hI
    refine ⟨_, hr, ?_⟩
    rcases r with st' | out
    · simp only at h ⊢
      refine ih (i + 1) st' s' h (fun j st s h1 h2 => hb j st s (by omega) (by omega)) ?_
      intro st s h
      exact hq st s (by rwa [show i + (k + 1) = i + 1 + k by omega])
    · simpa using h

omit [Zero R] [One R] [Add R] [Neg R] [Mul R] [Div R] [Star R] [DecidableEq R] [RealOps S] [EigOps R S] in
theorem ERec_facts {o : EOpts R S} {i : ℕ} {v : S} {a a0 : Arr S} (h1 : 1 ≤ i) (hsz : a.size = a0.size)
    (hout : ∀ j, (o.mem = false ∨ j = 0 ∨ i - 1 < j) → a.get j = a0.get j) :
    (ERec o i v a).size = a0.size ∧
    (∀ j, (o.mem = false ∨ j = 0 ∨ i < j) → (ERec o i v a).get j = a0.get j) ∧
    (o.mem → (ERec o i v a).get i = v) ∧ (∀ j, j < i → (ERec o i v a).get j = a.get j) := by
  unfold ERec
  cases hm : o.mem
  · rw [hm] at hout
    simp only [Bool.false_eq_true, if_false]
    exact ⟨hsz, fun j _ => hout j (.inl rfl), fun h => by simp at h, fun _ _ => trivial⟩
  · rw [hm] at hout
    simp only [if_true]
    refine ⟨by simpa using hsz, fun j hj => ?_, fun _ => by simp, fun j j2 => ?_⟩
    · rw [Arr.set_get_ne _ _ (by rcases hj with hj | hj | hj <;> [(simp at hj); omega; omega])]
      exact hout j (by rcases hj with hj | hj | hj <;> [(simp at hj); exact .inr (.inl hj); exact .inr (.inr (by omega))])
    · rw [Arr.set_get_ne _ _ (by omega)]

/-- one more point -/
def EPath.snoc (x : ℕ → EPt R S M n) (k : ℕ) (q : EPt R S M n) : ℕ → EPt R S M n := fun j => if j ≤ k then x j else q

omit [One R] [Add R] [Neg R] [Mul R] [Div R] [Star R] [EigOps R S] [DecidableEq R] [Zero R] in
theorem EInv.snoc {o : EOpts R S} {Start : EPt R S M n → Prop} {Step : EPt R S M n → EPt R S M n → Prop} {a0 : Arr S}
    {x : ℕ → EPt R S M n} {k : ℕ} {a : Arr S} (h : EInv o Start Step a0 x k a) {q : EPt R S M n} (hq : Step (x k) q) :
    let x' := EPath.snoc x k q
    let a' := ERec o (k + 1) q.resid a
    a'.size = a0.size ∧ (∀ j, (o.mem = false ∨ j = 0 ∨ k + 1 < j) → a'.get j = a0.get j) ∧ Start (x' 0) ∧
    (∀ j, j < k + 1 → Step (x' j) (x' (j + 1))) ∧ x' (k + 1) = q ∧ (∀ j, 1 ≤ j → j ≤ k → ¬ (x' j).resid ≤ o.tol) ∧
    (o.mem → ∀ j, 1 ≤ j → j ≤ k + 1 → a'.get j = (x' j).resid) := by
  obtain ⟨f1, f2, f3, f4⟩ := ERec_facts (i := k + 1) (v := q.resid) (by omega) h.size h.out
  refine ⟨f1, f2, by simpa [EPath.snoc] using h.start, fun j hj => ?_, by simp [EPath.snoc], fun j h1 h2 => ?_,
    fun hm j h1 h2 => ?_⟩
  · unfold EPath.snoc
    rw [if_pos (by omega)]
    by_cases hjk : j = k
    · subst hjk; simpa using hq
    · rw [if_pos (by omega)]; exact h.step j (by omega)
  · simp only [EPath.snoc, if_pos h2]; exact h.fails j h1 h2
  · by_cases hjk : j = k + 1
    · subst hjk; rw [f3 hm]; simp [EPath.snoc]
    · rw [f4 j (by omega)]
      simp only [EPath.snoc, if_pos (show j ≤ k by omega)]
      exact h.rec_ hm j h1 (by omega)

/-- loop and end of an eigensolver -/
theorem Ok_eLoop {K : EKit R S M n} {o : EOpts R S} {Start : EPt R S M n → Prop}
    {Step : EPt R S M n → EPt R S M n → Prop} {lam : R → R} {fin : M → M}
    {nrm : (Fin n → R) → (Fin n → R)} {Failed : EPt R S M n → Err → M → Prop} (X : EPt R S M n → ESt R S M n → Prop)
    {body : ℕ → R × S → EProg R S ((R × S) ⊕ EOut R S)}
    {last : (R × S) ⊕ EOut R S → EProg R S (EOut R S)} {st : R × S} {s s1 : ESt R S M n}
    (p0 : EPt R S M n) (hsz : o.maxiter < s.hist.size) (hh : s1.hist = s.hist) (hp : Start p0) (hI : EAt X p0 st s1)
    (hbody : ∀ i p st s2, EAt X p st s2 → i < s2.hist.size → Ok ((body i st).run K s2)
      (EIter o Step lam fin nrm Failed X i p s2.hist))
    (hlast1 : ∀ e s2, (last (.inr e)).run K s2 = some (e, s2))
    (hlast2 : ∀ p st s2, EAt X p st s2 → Ok ((last (.inl st)).run K s2) fun r =>
      r.1 = ⟨.maxiter, some (o.maxiter, p.resid, lam p.theta)⟩ ∧ r.2.hist = s2.hist ∧ r.2.h eV = nrm p.v ∧
      r.2.m = fin p.m) :
    Ok ((eFor body o.maxiter 1 st >>= last).run K s1) fun r =>
      EContract o Start Step lam fin nrm Failed s r.2 r.1 := by
  rw [EProg.run_bind, Ok_obind]
  refine Ok_eFor (fun i st s' => 1 ≤ i ∧ i ≤ o.maxiter + 1 ∧ ∃ x, EInv o Start Step s.hist x (i - 1) s'.hist ∧
      EAt X (x (i - 1)) st s')
    o.maxiter 1 st s1 ⟨le_rfl, by omega, fun _ => p0, ⟨by rw [hh], fun j _ => by rw [hh], hp, fun _ _ => by omega,
      fun _ _ _ => by omega, fun _ _ _ _ => by omega⟩, hI⟩ ?_ ?_
  · rintro i st s' h1 h2 ⟨-, -, x, hE, hA⟩
    obtain ⟨⟨r, s2⟩, hr, h⟩ := hbody i _ st s' hA (by rw [hE.size]; omega)
    obtain ⟨k, rfl⟩ : ∃ k, i = k + 1 := ⟨i - 1, by omega⟩
    rw [Nat.add_sub_cancel] at hE hA h
    refine ⟨_, hr, ?_⟩
    rcases r with st' | out
    · obtain ⟨q, k1, k2, k3, k4⟩ := h
      obtain ⟨g1, g2, g3, g4, g5, g6, g7⟩ := hE.snoc k1
      refine ⟨by omega, by omega, EPath.snoc x k q, ?_, ?_⟩
      · rw [Nat.add_sub_cancel]
        simp only
        rw [k3]
        refine ⟨g1, g2, g3, g4, fun j j1 j2 => ?_, g7⟩
        by_cases hj : j = k + 1
        · rw [hj, g5]; exact k2
        · exact g6 j j1 (by omega)
      · rw [Nat.add_sub_cancel, g5]; exact k4
    · simp only [hlast1, Ok_some]
      rcases h with ⟨q, k1, k2, k3, k4, k5, k6⟩ | ⟨k1, k2, k3, k4⟩
      · obtain ⟨g1, g2, g3, g4, g5, g6, g7⟩ := hE.snoc k1
        rw [← k3] at g1 g2 g7
        refine ⟨g1, fun j hj => g2 j ?_, EPath.snoc x k q, k + 1, g3, by omega, g4, fun j j1 j2 => g6 j j1 (by omega), g7,
          .inl ⟨by omega, ?_⟩⟩
        · rcases hj with hj | hj | hj <;> [exact .inl hj; exact .inr (.inl hj); exact .inr (.inr (by omega))]
        · rw [g5]; exact ⟨k2, k4, k5, k6⟩
      · rw [← k4] at hE
        refine ⟨hE.size, fun j hj => hE.out j ?_, x, k, hE.start, by omega, hE.step, fun j j1 j2 => hE.fails j j1 (by omega),
          hE.rec_, .inr (.inr ⟨by omega, fun hk => hE.fails k hk le_rfl, k1, k2, k3⟩)⟩
        rcases hj with hj | hj | hj <;> [exact .inl hj; exact .inr (.inl hj); exact .inr (.inr (by omega))]
  · rintro st s' ⟨-, -, x, hE, hA⟩
    rw [show 1 + o.maxiter - 1 = o.maxiter by omega] at hE hA
    refine (hlast2 _ st s' hA).mono ?_
    rintro ⟨out, s2⟩ ⟨k1, k2, k3, k4⟩
    simp only at *
    rw [← k2] at hE
    exact ⟨hE.size, fun j hj => hE.out j hj, x, o.maxiter, hE.start, le_rfl, hE.step,
      fun j j1 j2 => hE.fails j j1 (by omega), hE.rec_, .inr (.inl ⟨rfl, fun hk => hE.fails _ hk le_rfl, k1, k3, k4⟩)⟩

end Lis
