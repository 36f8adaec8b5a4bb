import Verif.Model.Hybrid
import Verif.Props.Stale
import Verif.Props.ArraySolver
import Verif.Props.Stationary

/-!
# C53: the hybrid preconditioner
-/

namespace Lis
variable {R S : Type} {n : ℕ}

/-! ### what an application computes -/

/-- the inner solver's start: `b`, the starting vector, fresh zeroed work vectors, a fresh history of `N` places -/
def hybridSt [Zero R] [Zero S] (initZero : Bool) (N : ℕ) (b : Fin n → R) : MSt R S n :=
  ⟨fun v => if v = hB then b else if v = hX then (if initZero then 0 else b) else 0, ⟨N, fun _ => 0⟩⟩

/-- the vector a *fresh* inner solver computes for right-hand side `b` (0 if it does not end) -/
def hybridOp [Zero R] [Add R] [Mul R] [Star R] [Zero S] (K : Kit R S n) (p : Prog R S (Out S)) (initZero : Bool) (N : ℕ)
    (b : Fin n → R) : Fin n → R :=
  ((p.run K (hybridSt initZero N b)).map fun r => r.2.h hX).getD 0

/-- the inner solver ends, for every right-hand side and starting vector, keeping `b` and the length of the history -/
def InnerEnds [Add R] [Mul R] [Star R] (K : Kit R S n) (p : Prog R S (Out S)) (N : ℕ) : Prop :=
  ∀ s : MSt R S n, s.hist.size = N → Ok (p.run K s) fun r => r.2.h hB = s.h hB ∧ r.2.hist.size = s.hist.size

section
variable [Zero R] [Add R] [Mul R] [Star R] [Zero S] [Add S]

theorem hybridStart_spec (initZero : Bool) {g : Vecs R} (hg : g.Good n) : Ok (hybridStart initZero g) fun g' => g'.Good n ∧
    g'.vecs n = Function.update (g.vecs n) hX (if initZero then 0 else g.vecs n hB) := by
  unfold hybridStart
  cases initZero with
  | true => exact Ok_of_assigned hg (vectorSetAll_spec 0 g hX (hg.wf hX))
  | false => exact Ok_of_assigned hg (vectorCopy_spec g hB hX (hg.wf hB) (hg.wf hX) (by rw [(hg hB).1, (hg hX).1]))

/-- **C53 (an application).**  If the inner solver does not depend on leftovers (C52), the hybrid preconditioner puts into
`X` the vector a fresh inner solver computes from `B`, whatever the inner solver's vectors and history hold; it changes
no other vector of the caller, and leaves the inner solver ready for the next application. -/
theorem psolveHybrid_spec {A : AKit R S} {K : Kit R S n} (hA : A.Implements K) {p : Prog R S (Out S)} (hp : IgnoresWork K p)
    {N : ℕ} (hend : InnerEnds K p N) (initZero : Bool) {st : ASt R S} (hst : st.h.Good n) (hN : st.hist.size = N)
    {b x : ℕ} (hbx : b ≠ x) {h : Vecs R} (hg : h.Good n) :
    Ok (psolveHybrid A p initZero st b x h) fun r => r.1.Good n ∧
      r.1.vecs n = Function.update (h.vecs n) x (hybridOp K p initZero N (h.vecs n b)) ∧
      r.2.h.Good n ∧ r.2.hist.size = N := by
  unfold psolveHybrid
  rw [Ok_bind]
  have hg0 : Vecs.Good n (fun v => if v = hB then h b else st.h v) := by
    intro v
    by_cases e : v = hB
    · simp only [e, if_true]; exact hg b
    · simp only [e, if_false]; exact hst v
  refine (hybridStart_spec initZero hg0).mono ?_
  rintro g ⟨gg, eg⟩
  have eB : g.vecs n hB = h.vecs n b := by
    rw [eg, Function.update_of_ne (by decide)]; rfl
  have eX : g.vecs n hX = if initZero then 0 else h.vecs n b := by
    rw [eg, Function.update_self]
    rfl
  rw [Ok_bind]
  refine (Prog.exec_refines hA p (Q := fun _ t => t.h hX = hybridOp K p initZero N (h.vecs n b) ∧ t.h hB = h.vecs n b ∧
    t.hist.size = N) gg ?_).mono ?_
  · obtain ⟨r, hr, rb, rs⟩ := hend ⟨g.vecs n, st.hist⟩ hN
    refine ⟨r, hr, ?_, rb.trans eB, rs.trans hN⟩
    rcases hp ⟨g.vecs n, st.hist⟩ (hybridSt initZero N (h.vecs n b)) (by simp [hybridSt, eB])
      (eX.trans rfl) (by simp [hybridSt, hN]) with ⟨h1, -⟩ | ⟨a, t, t', h1, h2, hx, -⟩
    · rw [h1] at hr; cases hr
    · rw [h1] at hr; cases hr
      unfold hybridOp
      rw [h2]; exact hx
  · rintro ⟨out, s⟩ ⟨gs, ex, eb, en⟩
    simp only at gs ex eb en ⊢
    rw [Ok_bind]
    have hg1 : Vecs.Good n (fun v : ℕ => if v = 0 then s.h hX else h x) := by
      intro v
      by_cases e : v = 0
      · simp only [e, if_true]; exact gs hX
      · simp only [e, if_false]; exact hg x
    refine (Ok_of_assigned hg1 (vectorCopy_spec _ 0 1 (hg1.wf 0) (hg1.wf 1) (by rw [(hg1 0).1, (hg1 1).1]))).mono ?_
    rintro c ⟨gc, ec⟩
    rw [Ok_pure]
    refine ⟨?_, ?_, gs, en⟩
    · intro v
      by_cases e : v = x
      · simp only [e, if_true]; exact gc 1
      · by_cases e' : v = b
        · simp only [e', hbx, if_true, if_false]; exact gs hB
        · simp only [e, e', if_false]; exact hg v
    · funext v
      by_cases e : v = x
      · subst e
        rw [Function.update_self, ← ex]
        have : Vecs.vecs n c 1 = s.h.vecs n hX := by
          rw [ec, Function.update_self]; rfl
        rw [← this]
        funext i; simp [Vecs.vecs]
      · rw [Function.update_of_ne e]
        by_cases e' : v = b
        · subst e'
          rw [← eb]
          funext i; simp [Vecs.vecs, e]
        · funext i; simp [Vecs.vecs, e, e']

/-! ### solvers with a preconditioner that keeps a state -/

/-- a stateful preconditioner computes the function `m` as long as its state is in `Inv` -/
def MapsVecP {σ : Type} (n : ℕ) (Inv : σ → Prop) (f : σ → ℕ → ℕ → Vecs R → Option (Vecs R × σ)) (m : (Fin n → R) → Fin n → R) : Prop :=
  ∀ t x y (h : Vecs R), Inv t → x ≠ y → h.Good n →
    Ok (f t x y h) fun r => r.1.Good n ∧ r.1.vecs n = Function.update (h.vecs n) y (m (h.vecs n x)) ∧ Inv r.2

theorem VOp.execP_refines {σ : Type} {Inv : σ → Prop} {A : AKit R S} {K : Kit R S n} (hA : A.Implements K)
    {ps psh : σ → ℕ → ℕ → Vecs R → Option (Vecs R × σ)} {m mh : (Fin n → R) → Fin n → R}
    (hps : MapsVecP n Inv ps m) (hpsh : MapsVecP n Inv psh mh) (o : VOp R) {h : Vecs R} {t : σ} (hg : h.Good n) (ht : Inv t) :
    Ok (o.execP A ps psh h t) fun r => r.1.Good n ∧ r.1.vecs n = o.run { K with ps := m, psh := mh } (h.vecs n) ∧ Inv r.2 := by
  have gen : ∀ o : VOp R, Ok ((o.exec A h).map fun h => (h, t)) fun r => r.1.Good n ∧ r.1.vecs n = o.run K (h.vecs n) ∧ Inv r.2 := by
    intro o
    obtain ⟨a, ha, h1, h2⟩ := VOp.exec_refines hA o hg
    exact ⟨(a, t), by rw [ha]; rfl, h1, h2, ht⟩
  cases o with
  | psolve x y hxy => exact hps t x y h ht hxy hg
  | psolveh x y hxy => exact hpsh t x y h ht hxy hg
  | copy x y => exact gen (.copy x y)
  | axpy a x y => exact gen (.axpy a x y)
  | xpay x a y => exact gen (.xpay x a y)
  | axpyz a x y z => exact gen (.axpyz a x y z)
  | scale a x => exact gen (.scale a x)
  | setAll a x => exact gen (.setAll a x)
  | pmul x y z => exact gen (.pmul x y z)
  | conj x => exact gen (.conj x)
  | fill f x => exact gen (.fill f x)
  | matvec x y hxy => exact gen (.matvec x y hxy)
  | matvech x y hxy => exact gen (.matvech x y hxy)
  | lsolve x y hxy => exact gen (.lsolve x y hxy)
  | rdiag x => exact gen (.rdiag x)
  | comb a x l y => exact gen (.comb a x l y)

/-- **Refinement for stateful preconditioners.** If the preconditioner computes a function whatever its state, the whole run
of the outer solver behaves as with that fixed function. -/
theorem Prog.execP_refines {σ : Type} {Inv : σ → Prop} {A : AKit R S} {K : Kit R S n} (hA : A.Implements K)
    {ps psh : σ → ℕ → ℕ → Vecs R → Option (Vecs R × σ)} {m mh : (Fin n → R) → Fin n → R}
    (hps : MapsVecP n Inv ps m) (hpsh : MapsVecP n Inv psh mh) {α : Type} (p : Prog R S α)
    {Q : α → MSt R S n → Prop} : ∀ {h : Vecs R} {hist : Arr S} {t : σ}, h.Good n → Inv t →
    Ok (p.run { K with ps := m, psh := mh } ⟨h.vecs n, hist⟩) (fun r => Q r.1 r.2) →
    Ok (p.execP A ps psh ⟨h, hist⟩ t) fun r => r.2.1.h.Good n ∧ Inv r.2.2 ∧ Q r.1 ⟨r.2.1.h.vecs n, r.2.1.hist⟩ := by
  induction p with
  | ret a => rintro h hist t hg ht ⟨r, hr, hq⟩; cases hr; exact ⟨_, rfl, hg, ht, hq⟩
  | vop o k ih =>
    intro h hist t hg ht hq
    unfold Prog.execP
    rw [Ok_obind]
    refine (VOp.execP_refines hA hps hpsh o hg ht).mono ?_
    rintro r ⟨g', e, i'⟩
    refine ih g' i' ?_
    rw [e]; exact hq
  | red o k ih =>
    intro h hist t hg ht hq
    unfold Prog.execP
    rw [hA.red o h hg]
    refine ih _ hg ht ?_
    cases o <;> exact hq
  | norm o k ih =>
    intro h hist t hg ht hq
    unfold Prog.execP
    rw [hA.norm o h hg]
    refine ih _ hg ht ?_
    cases o <;> exact hq
  | hist i v k ih =>
    intro h hist t hg ht hq
    unfold Prog.execP
    rw [Ok_obind]
    unfold Prog.run at hq
    rw [Ok_obind] at hq
    exact hq.mono fun a ha => ih hg ht ha
  | undef => rintro h hist t hg ht ⟨r, hr, -⟩; cases hr

/-- the state of the inner solver in which applications are possible -/
def HybridReady (n N : ℕ) (st : ASt R S) : Prop := st.h.Good n ∧ st.hist.size = N

theorem psolveHybrid_maps {A : AKit R S} {K : Kit R S n} (hA : A.Implements K) {p : Prog R S (Out S)} (hp : IgnoresWork K p)
    {N : ℕ} (hend : InnerEnds K p N) (initZero : Bool) :
    MapsVecP n (HybridReady n N) (psolveHybrid A p initZero) (hybridOp K p initZero N) := by
  intro t x y h ht hxy hg
  exact (psolveHybrid_spec hA hp hend initZero ht.1 ht.2 hxy hg).mono fun r hr => ⟨hr.1, hr.2.1, hr.2.2⟩

theorem psolvehHybrid_maps {A : AKit R S} {K : Kit R S n} (hA : A.Implements K) {p : Prog R S (Out S)} (hp : IgnoresWork K p)
    {N : ℕ} (hend : InnerEnds K p N) (initZero : Bool) :
    MapsVecP n (HybridReady n N) (psolvehHybrid A p initZero) (hybridOp K p initZero N) :=
  psolveHybrid_maps hA hp hend initZero
end

/-! ### which inner solvers qualify -/

section
variable [Zero R] [One R] [Add R] [Neg R] [Mul R] [Div R] [Sub R] [Star R] [DecidableEq R] [RealOps S]

theorem krylov_ends (K : Kit R S n) (k : Krylov) (junk : S) (o : Opts R S) {N : ℕ} (hN : o.maxiter < N) :
    InnerEnds K (k.prog junk o) N := fun s hs =>
  (krylov_status k K o junk s (by rw [hs]; exact hN)).mono fun _ h => ⟨h.b, h.size⟩
theorem gmres_ends (K : Kit R S n) (F : GmFns R S) (m : ℕ) (hm : 1 ≤ m) (junk : S) (o : Opts R S) {N : ℕ} (hN : o.maxiter < N) :
    InnerEnds K (lisGmres F m junk o) N := fun s hs =>
  (lisGmres_status F m hm junk K o s (by rw [hs]; exact hN)).mono fun _ h => ⟨h.b, h.size⟩
theorem fgmres_ends (K : Kit R S n) (F : GmFns R S) (m : ℕ) (hm : 1 ≤ m) (junk : S) (o : Opts R S) {N : ℕ} (hN : o.maxiter < N) :
    InnerEnds K (lisFgmres F m hm junk o) N := fun s hs =>
  (lisFgmres_status F m hm junk K o s (by rw [hs]; exact hN)).mono fun _ h => ⟨h.b, h.size⟩
theorem jacobi_ends (K : Kit R S n) (junk : S) (o : Opts R S) {N : ℕ} (hN : o.maxiter < N) : InnerEnds K (lisJacobi junk o) N :=
  fun s hs => (lisJacobi_spec K o junk s (by rw [hs]; exact hN)).mono fun _ h => ⟨h.b, h.size⟩
theorem gs_ends (K : Kit R S n) (junk : S) (o : Opts R S) {N : ℕ} (hN : o.maxiter < N) : InnerEnds K (lisGs junk o) N :=
  fun s hs => (lisGs_spec K o junk s (by rw [hs]; exact hN)).mono fun _ h => ⟨h.b, h.size⟩
theorem sor_ends (K : Kit R S n) (junk : S) (o : Opts R S) {N : ℕ} (hN : o.maxiter < N) : InnerEnds K (lisSor junk o) N :=
  gs_ends K junk o hN

/-- **C53 (the default, inner SOR or Gauss-Seidel).**  The preconditioner makes between one and `-hybrid_maxiter` sweeps from
zero (or from `b`): as many as it takes until the residual *before* the last sweep meets `-hybrid_tol`. -/
theorem hybrid_sor (K : Kit R S n) (junk : S) (o : Opts R S) {N : ℕ} (hN : o.maxiter < N) (initZero : Bool) (b : Fin n → R) :
    ∃ k, k ≤ o.maxiter ∧ (∀ j, j + 1 < k → ¬ sweepRes K b ((sweep K K.ls b)^[j] (if initZero then 0 else b)) ≤ o.tol) ∧
      (k = o.maxiter ∨ sweepRes K b ((sweep K K.ls b)^[k - 1] (if initZero then 0 else b)) ≤ o.tol) ∧
      hybridOp K (lisSor junk o) initZero N b = K.ps ((sweep K K.ls b)^[k] (if initZero then 0 else b)) := by
  obtain ⟨r, hr, h⟩ := lisGs_spec K o junk (hybridSt initZero N b) (by exact hN)
  have e : hybridOp K (lisSor junk o) initZero N b = r.2.h hX := by
    unfold hybridOp lisSor; rw [hr]; rfl
  have eB : (hybridSt (S := S) initZero N b).h hB = b := rfl
  have eX : (hybridSt (S := S) initZero N b).h hX = if initZero then 0 else b := rfl
  have hf := h.fails
  have hc := h.cases
  rw [eB, eX] at hf hc
  rcases hc with ⟨-, -, h3, h4, h5, h6⟩ | ⟨-, h2, -, h6⟩
  · exact ⟨r.1.iter, h3, hf, Or.inr (h4 ▸ h5), e.trans h6⟩
  · exact ⟨o.maxiter, le_refl _, fun j hj => hf j (by omega), Or.inl rfl, e.trans h6⟩
end

/-! ### the outer solver -/

section
variable [CommRing R] [Div R] [Star R] [DecidableEq R]

/-- the inner solvers that do not depend on leftovers, over a ring -/
theorem krylov_ignores_ring [RealOps S] (K : Kit R S n) (junk : S) (o : Opts R S) (k : Krylov) (hk : k ≠ .gpbicg ∧ k ≠ .gpbicr) :
    IgnoresWork K (k.prog junk o) := by
  by_cases h3 : k = .bicgsafe
  · subst h3; exact bicgsafe_ignores_work K junk o
  by_cases h4 : k = .bicrsafe
  · subst h4; exact bicrsafe_ignores_work K junk o
  exact krylov_ignores_work K junk o k ⟨hk.1, hk.2, h3, h4⟩

/-- **C53 (an outer run).**  Any Krylov solver with the hybrid preconditioner, the inner solver being any program that does
not depend on leftovers and ends (with its own product and preconditioner `A'`): the run stays inside all arrays, and behaves
as with the fixed preconditioner `b ↦ hybridOp … b`, although the inner solver's vectors change from call to call.  In
particular after `LIS_SUCCESS` the returned `x` meets the documented condition. -/
theorem krylov_hybrid_array {a : ℕ → ℕ → R}
    {mv mvh : Arr R → Arr R → Option (Arr R)} (hmv : IsMatvec n a mv) (hmvh : IsMatvech n a mvh)
    {A' : AKit R ℝ} {K' : Kit R ℝ n} (hA' : A'.Implements K') {p : Prog R ℝ (Out ℝ)} (hp : IgnoresWork K' p) {N : ℕ}
    (hend : InnerEnds K' p N) (initZero : Bool) {st : ASt R ℝ} (hst : HybridReady n N st)
    {sqrt fabs : R → ℝ} (h2 : ∀ r, 0 ≤ sqrt r) (h1 : ∀ r, 0 ≤ fabs r)
    {omp : Option (OmpRun R)} {ompS : Option (OmpRun ℝ)} (ho : GoodRun n omp) (hoS : GoodRun n ompS)
    (k : Krylov) (o : Opts R ℝ) (ht : 0 ≤ o.tol) (hw : o.conv = .nrm1B → o.tol ≤ o.tolW) (junk : ℝ)
    {h : Vecs R} (hg : h.Good n) {hist : Arr ℝ} (hsz : o.maxiter < hist.size) (hz : o.initZero → h.vecs n hX = 0) :
    let K := krylovMath a sqrt fabs (hybridOp K' p initZero N) (hybridOp K' p initZero N)
    Ok ((k.prog junk o).execP (krylovKit mv mvh psolveNone psolveNone sqrt fabs omp ompS) (psolveHybrid A' p initZero)
        (psolvehHybrid A' p initZero) ⟨h, hist⟩ st) fun r =>
      r.2.1.h.Good n ∧ HybridReady n N r.2.2 ∧
      Contract K o junk (k.brk K) ⟨h.vecs n, hist⟩ ⟨r.2.1.h.vecs n, r.2.1.hist⟩ r.1 ∧
      ReportsTrue K o junk ⟨h.vecs n, hist⟩ ⟨r.2.1.h.vecs n, r.2.1.hist⟩ r.1 ∧
      (r.1.ret = .success → MeetsTol K o (h.vecs n hB) (h.vecs n hX) (r.2.1.h.vecs n hX)) := by
  intro K
  have hlin : K.Linear := mathKit_linear a sqrt fabs _ _ id 0
  have h1' : ∀ v, 0 ≤ K.nrm1 v := fun v => by
    show (0 : ℝ) ≤ ∑ i, fabs (v i)
    exact Finset.sum_nonneg fun i _ => h1 _
  refine Prog.execP_refines (krylovKit_implements hmv hmvh (psolveNone_maps n) (psolveNone_maps n) sqrt fabs ho hoS)
    (psolveHybrid_maps hA' hp hend initZero) (psolvehHybrid_maps hA' hp hend initZero) (k.prog junk o)
    (Q := fun out s' => Contract K o junk (k.brk K) ⟨h.vecs n, hist⟩ s' out ∧ ReportsTrue K o junk ⟨h.vecs n, hist⟩ s' out ∧
      (out.ret = .success → MeetsTol K o (h.vecs n hB) (h.vecs n hX) (s'.h hX))) hg hst ?_
  obtain ⟨r, hr, c1⟩ := krylov_status k K o junk ⟨h.vecs n, hist⟩ hsz
  obtain ⟨r', hr', c2⟩ := krylov_residual k K hlin o junk ⟨h.vecs n, hist⟩ hsz hz
  obtain ⟨r'', hr'', c3⟩ := krylov_success_meetsTol k K hlin (fun v => h2 _) h1'
    o ht hw junk ⟨h.vecs n, hist⟩ hsz hz
  rw [hr] at hr' hr''
  cases hr'; cases hr''
  exact ⟨r, hr, c1, c2, c3⟩

/-- **C53 (quality of an application).**  With an inner Krylov solver, if the inner run reports `LIS_SUCCESS` the vector
returned satisfies `A x ≈ b` within the inner tolerance. -/
theorem hybrid_meets (K : Kit R ℝ n) (hlin : K.Linear) (h2 : ∀ v, 0 ≤ K.nrm2 v) (h1 : ∀ v, 0 ≤ K.nrm1 v) (k : Krylov)
    (o : Opts R ℝ) (ht : 0 ≤ o.tol) (hw : o.conv = .nrm1B → o.tol ≤ o.tolW) (junk : ℝ) {N : ℕ} (hN : o.maxiter < N)
    (b : Fin n → R) :
    ∃ out s, (k.prog junk o).run K (hybridSt o.initZero N b) = some (out, s) ∧
      (out.ret = .success → MeetsTol K o b (if o.initZero then 0 else b) (hybridOp K (k.prog junk o) o.initZero N b)) := by
  obtain ⟨⟨out, s⟩, hr, h⟩ := krylov_success_meetsTol k K hlin h2 h1 o ht hw junk (hybridSt o.initZero N b) hN
    (fun hz => by show (if o.initZero then 0 else b) = 0; rw [if_pos hz])
  refine ⟨out, s, hr, fun hs => ?_⟩
  have e : hybridOp K (k.prog junk o) o.initZero N b = s.h hX := by
    unfold hybridOp; rw [hr]; rfl
  rw [e]; exact h hs

end

end Lis
