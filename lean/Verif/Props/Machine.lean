import Verif.Model.Machine
import Verif.Props.Vector

/-!
# Array-level execution of a solver program refines its mathematical execution
-/

namespace Lis
variable {R S : Type}

/-- every vector object has length `n` and its array holds at least `n` elements -/
def Vecs.Good (n : ℕ) (h : Vecs R) : Prop := ∀ v, (h v).n = n ∧ n ≤ (h v).value.size

/-- the mathematical vectors held by the objects -/
def Vecs.vecs (n : ℕ) (h : Vecs R) : MHeap R n := fun v i => (h v).value.get i

theorem Assigned.good {n : ℕ} {h h' : Vecs R} {z : ℕ} {g : ℕ → R} (hg : h.Good n) (a : Assigned h z g h') :
    h'.Good n := by
  intro v
  by_cases hv : v = z
  · subst hv; rw [a.len, a.size]; exact hg v
  · rw [a.other v hv]; exact hg v

theorem Assigned.vecs {n : ℕ} {h h' : Vecs R} {z : ℕ} {g : ℕ → R} (hg : h.Good n) (a : Assigned h z g h') :
    h'.vecs n = Function.update (h.vecs n) z fun i => g i := by
  funext v i
  by_cases hv : v = z
  · subst hv
    rw [Function.update_self]
    unfold Vecs.vecs
    rw [a.get, if_pos (by rw [(hg v).1]; exact i.2)]
  · rw [Function.update_of_ne hv]
    unfold Vecs.vecs
    rw [a.other v hv]

/-- the array-level kit computes the functions of the mathematical kit -/
structure AKit.Implements [Zero R] [Add R] [Mul R] [Star R] [Zero S] [Add S] (A : AKit R S) {n : ℕ} (K : Kit R S n) :
    Prop where
  mv : ∀ x y (h : Vecs R), x ≠ y → h.Good n →
    Ok (A.mv x y h) fun h' => h'.Good n ∧ h'.vecs n = Function.update (h.vecs n) y (K.mv (h.vecs n x))
  mvh : ∀ x y (h : Vecs R), x ≠ y → h.Good n →
    Ok (A.mvh x y h) fun h' => h'.Good n ∧ h'.vecs n = Function.update (h.vecs n) y (K.mvh (h.vecs n x))
  ps : ∀ x y (h : Vecs R), x ≠ y → h.Good n →
    Ok (A.ps x y h) fun h' => h'.Good n ∧ h'.vecs n = Function.update (h.vecs n) y (K.ps (h.vecs n x))
  psh : ∀ x y (h : Vecs R), x ≠ y → h.Good n →
    Ok (A.psh x y h) fun h' => h'.Good n ∧ h'.vecs n = Function.update (h.vecs n) y (K.psh (h.vecs n x))
  ls : ∀ x y (h : Vecs R), x ≠ y → h.Good n →
    Ok (A.ls x y h) fun h' => h'.Good n ∧ h'.vecs n = Function.update (h.vecs n) y (K.ls (h.vecs n x))
  rdg : ∀ x (h : Vecs R), h.Good n →
    Ok (A.rdg x h) fun h' => h'.Good n ∧ h'.vecs n = Function.update (h.vecs n) x K.rdg
  red : ∀ (o : VRed) (h : Vecs R), h.Good n → o.exec A h = some (o.run K (h.vecs n))
  norm : ∀ (o : VNorm) (h : Vecs R), h.Good n → o.exec A h = some (o.run K (h.vecs n))

theorem Ok_of_assigned {n : ℕ} {h : Vecs R} (hg : h.Good n) {m : Option (Err × Vecs R)} {z : ℕ} {g : ℕ → R}
    (hm : Ok m fun r => r.1 = .success ∧ Assigned h z g r.2) :
    Ok (m.map Prod.snd) fun h' => h'.Good n ∧ h'.vecs n = Function.update (h.vecs n) z fun i => g i := by
  obtain ⟨r, rfl, -, a⟩ := hm
  exact ⟨r.2, rfl, a.good hg, a.vecs hg⟩

theorem vectorFill_spec (f : ℕ → R) (h : Vecs R) (x : ℕ) (hx : h.WF x) :
    Ok (vectorFill f x h) fun r => r.1 = .success ∧ Assigned h x f r.2 := by
  unfold vectorFill
  rw [Ok_bind]
  refine Ok_elem f rfl hx (fun i h' hi hI => rfl) (fun h' hA => ?_)
  rw [Ok_pure]; exact ⟨rfl, hA⟩

theorem vectorComb_spec [Add R] [Mul R] (a : R) (l : List (R × ℕ)) (h : Vecs R) (x y : ℕ) (wf : ∀ v, h.WF v)
    (len : ∀ v w, (h v).n = (h w).n) :
    Ok (vectorComb a x l y h) fun r => r.1 = .success ∧
      Assigned h y (fun i => l.foldl (fun t p => t + h.el p.2 i * p.1) (a * h.el x i)) r.2 := by
  unfold vectorComb
  rw [Ok_bind]
  refine Ok_elem (fun i => l.foldl (fun t p => t + h.el p.2 i * p.1) (a * h.el x i)) rfl (wf y) (fun i h' hi hI => ?_)
    (fun h' hA => ?_)
  · have hr : ∀ v, vrd h' v i = some (h.el v i) := fun v => vrd_eq hI hi (by rw [len y v]; exact wf v)
    have hf : ∀ (l : List (R × ℕ)) (t : R), l.foldlM (fun (t : R) (p : R × ℕ) => do
        let z ← vrd h' p.2 i
        pure (t + z * p.1)) t = some (l.foldl (fun t p => t + h.el p.2 i * p.1) t) := by
      intro l
      induction l with
      | nil => intro t; rfl
      | cons p l ih =>
        intro t
        rw [List.foldlM_cons, hr]
        exact ih _
    show (do
      let xi ← vrd h' x i
      let t ← l.foldlM (fun (t : R) (p : R × ℕ) => do
        let z ← vrd h' p.2 i
        pure (t + z * p.1)) (a * xi)
      vwr h' y i t) = _
    rw [hr x]
    show (do
      let t ← l.foldlM (fun (t : R) (p : R × ℕ) => do
        let z ← vrd h' p.2 i
        pure (t + z * p.1)) (a * h.el x i)
      vwr h' y i t) = _
    rw [hf]
    rfl
  · rw [Ok_pure]; exact ⟨rfl, hA⟩

section
variable [Zero R] [Add R] [Mul R] [Star R] [Zero S] [Add S]

theorem VOp.exec_refines {A : AKit R S} {n : ℕ} {K : Kit R S n} (hA : A.Implements K) (o : VOp R) {h : Vecs R}
    (hg : h.Good n) : Ok (o.exec A h) fun h' => h'.Good n ∧ h'.vecs n = o.run K (h.vecs n) := by
  have wf : ∀ v, h.WF v := fun v => by unfold Vecs.WF; rw [(hg v).1]; exact (hg v).2
  have len : ∀ v w, (h v).n = (h w).n := fun v w => by rw [(hg v).1, (hg w).1]
  cases o with
  | copy x y => exact Ok_of_assigned hg (vectorCopy_spec h x y (wf x) (wf y) (len x y))
  | axpy a x y => exact Ok_of_assigned hg (vectorAxpy_spec a h x y (wf x) (wf y) (len x y))
  | xpay x a y => exact Ok_of_assigned hg (vectorXpay_spec a h x y (wf x) (wf y) (len x y))
  | axpyz a x y z =>
    exact Ok_of_assigned hg (vectorAxpyz_spec a h x y z (wf x) (wf y) (wf z) (len x y) (len x z))
  | scale a x => exact Ok_of_assigned hg (vectorScale_spec a h x (wf x))
  | setAll a x => exact Ok_of_assigned hg (vectorSetAll_spec a h x (wf x))
  | pmul x y z => exact Ok_of_assigned hg (vectorPmul_spec h x y z (wf x) (wf y) (wf z) (len x y) (len x z))
  | conj x => exact Ok_of_assigned hg (vectorConjugate_spec h x (wf x))
  | fill f x => exact Ok_of_assigned hg (vectorFill_spec f h x (wf x))
  | matvec x y hxy => exact hA.mv x y h hxy hg
  | matvech x y hxy => exact hA.mvh x y h hxy hg
  | psolve x y hxy => exact hA.ps x y h hxy hg
  | psolveh x y hxy => exact hA.psh x y h hxy hg
  | lsolve x y hxy => exact hA.ls x y h hxy hg
  | rdiag x => exact hA.rdg x h hg
  | comb a x l y => exact Ok_of_assigned hg (vectorComb_spec a l h x y wf len)

/-- **Refinement.** Whatever holds of the result of the mathematical execution of a program holds of the result of its
array-level execution, which stays inside all arrays whenever the mathematical one is defined. -/
theorem Prog.exec_refines {A : AKit R S} {n : ℕ} {K : Kit R S n} (hA : A.Implements K) {α : Type} (p : Prog R S α)
    {Q : α → MSt R S n → Prop} : ∀ {h : Vecs R} {hist : Arr S}, h.Good n →
    Ok (p.run K ⟨h.vecs n, hist⟩) (fun r => Q r.1 r.2) →
    Ok (p.exec A ⟨h, hist⟩) fun r => r.2.h.Good n ∧ Q r.1 ⟨r.2.h.vecs n, r.2.hist⟩ := by
  induction p with
  | ret a => rintro h hist hg ⟨r, hr, hq⟩; cases hr; exact ⟨_, rfl, hg, hq⟩
  | vop o k ih =>
    intro h hist hg hq
    unfold Prog.exec
    rw [Ok_obind]
    refine (VOp.exec_refines hA o hg).mono ?_
    rintro h' ⟨g', e⟩
    refine ih g' ?_
    rw [e]; exact hq
  | red o k ih =>
    intro h hist hg hq
    unfold Prog.exec
    rw [hA.red o h hg]
    exact ih _ hg hq
  | norm o k ih =>
    intro h hist hg hq
    unfold Prog.exec
    rw [hA.norm o h hg]
    exact ih _ hg hq
  | hist i v k ih =>
    intro h hist hg hq
    unfold Prog.exec
    rw [Ok_obind]
    unfold Prog.run at hq
    rw [Ok_obind] at hq
    exact hq.mono fun a ha => ih hg ha
  | undef => rintro h hist hg ⟨r, hr, -⟩; cases hr

end

/-! ### running programs symbolically -/
section run
variable [Add R] [Mul R] [Star R] {n : ℕ} (K : Kit R S n) {α β : Type}

@[simp] theorem Prog.run_bind (p : Prog R S α) (f : α → Prog R S β) (s : MSt R S n) :
    (p >>= f).run K s = (p.run K s).bind fun r => (f r.1).run K r.2 := by
  change (Prog.bind p f).run K s = _
  induction p generalizing s with
  | ret a => rfl
  | vop o k ih => exact ih _
  | red o k ih => exact ih _ _
  | norm o k ih => exact ih _ _
  | hist i v k ih =>
    simp only [Prog.bind, Prog.run, Option.bind_assoc]
    congr 1
    funext a
    exact ih _
  | undef => rfl

@[simp] theorem Prog.run_pure (a : α) (s : MSt R S n) : (pure a : Prog R S α).run K s = some (a, s) := rfl
@[simp] theorem run_vCopy (x y : ℕ) (s : MSt R S n) : ((vCopy x y) : Prog R S Unit).run K s =
    some ((), ⟨Function.update s.h y (s.h x), s.hist⟩) := rfl
@[simp] theorem run_vAxpy (a : R) (x y : ℕ) (s : MSt R S n) : ((vAxpy a x y) : Prog R S Unit).run K s =
    some ((), ⟨Function.update s.h y fun i => s.h y i + a * s.h x i, s.hist⟩) := rfl
@[simp] theorem run_vXpay (x : ℕ) (a : R) (y : ℕ) (s : MSt R S n) : ((vXpay x a y) : Prog R S Unit).run K s =
    some ((), ⟨Function.update s.h y fun i => s.h x i + a * s.h y i, s.hist⟩) := rfl
@[simp] theorem run_vAxpyz (a : R) (x y z : ℕ) (s : MSt R S n) : ((vAxpyz a x y z) : Prog R S Unit).run K s =
    some ((), ⟨Function.update s.h z fun i => a * s.h x i + s.h y i, s.hist⟩) := rfl
@[simp] theorem run_vScale (a : R) (x : ℕ) (s : MSt R S n) : ((vScale a x) : Prog R S Unit).run K s =
    some ((), ⟨Function.update s.h x fun i => a * s.h x i, s.hist⟩) := rfl
@[simp] theorem run_vSetAll (a : R) (x : ℕ) (s : MSt R S n) : ((vSetAll a x) : Prog R S Unit).run K s =
    some ((), ⟨Function.update s.h x fun _ => a, s.hist⟩) := rfl
@[simp] theorem run_vPmul (x y z : ℕ) (s : MSt R S n) : ((vPmul x y z) : Prog R S Unit).run K s =
    some ((), ⟨Function.update s.h z fun i => s.h x i * s.h y i, s.hist⟩) := rfl
@[simp] theorem run_vConj (x : ℕ) (s : MSt R S n) : ((vConj x) : Prog R S Unit).run K s =
    some ((), ⟨Function.update s.h x fun i => star (s.h x i), s.hist⟩) := rfl
@[simp] theorem run_vFill (f : ℕ → R) (x : ℕ) (s : MSt R S n) : ((vFill f x) : Prog R S Unit).run K s =
    some ((), ⟨Function.update s.h x fun i => f i, s.hist⟩) := rfl
@[simp] theorem run_mMatvec (x y : ℕ) (h : x ≠ y) (s : MSt R S n) : ((mMatvec x y h) : Prog R S Unit).run K s =
    some ((), ⟨Function.update s.h y (K.mv (s.h x)), s.hist⟩) := rfl
@[simp] theorem run_mMatvech (x y : ℕ) (h : x ≠ y) (s : MSt R S n) : ((mMatvech x y h) : Prog R S Unit).run K s =
    some ((), ⟨Function.update s.h y (K.mvh (s.h x)), s.hist⟩) := rfl
@[simp] theorem run_mPsolve (x y : ℕ) (h : x ≠ y) (s : MSt R S n) : ((mPsolve x y h) : Prog R S Unit).run K s =
    some ((), ⟨Function.update s.h y (K.ps (s.h x)), s.hist⟩) := rfl
@[simp] theorem run_mPsolveh (x y : ℕ) (h : x ≠ y) (s : MSt R S n) : ((mPsolveh x y h) : Prog R S Unit).run K s =
    some ((), ⟨Function.update s.h y (K.psh (s.h x)), s.hist⟩) := rfl
@[simp] theorem run_mLsolve (x y : ℕ) (h : x ≠ y) (s : MSt R S n) : ((mLsolve x y h) : Prog R S Unit).run K s =
    some ((), ⟨Function.update s.h y (K.ls (s.h x)), s.hist⟩) := rfl
@[simp] theorem run_mRdiag (x : ℕ) (s : MSt R S n) : ((mRdiag x) : Prog R S Unit).run K s =
    some ((), ⟨Function.update s.h x K.rdg, s.hist⟩) := rfl
@[simp] theorem run_vDot (x y : ℕ) (s : MSt R S n) : (vDot x y : Prog R S R).run K s =
    some (K.dot (s.h x) (s.h y), s) := rfl
@[simp] theorem run_vNhdot (x y : ℕ) (s : MSt R S n) : (vNhdot x y : Prog R S R).run K s =
    some (K.nhdot (s.h x) (s.h y), s) := rfl
@[simp] theorem run_vNrm2 (x : ℕ) (s : MSt R S n) : (vNrm2 x : Prog R S S).run K s = some (K.nrm2 (s.h x), s) := rfl
@[simp] theorem run_vNrm1 (x : ℕ) (s : MSt R S n) : (vNrm1 x : Prog R S S).run K s = some (K.nrm1 (s.h x), s) := rfl
theorem run_setHist (i : ℕ) (v : S) (s : MSt R S n) (hi : i < s.hist.size) :
    (setHist i v : Prog R S Unit).run K s = some ((), ⟨s.h, s.hist.set i v⟩) := by
  simp [setHist, Prog.run, Arr.wr, hi]
end run

end Lis
