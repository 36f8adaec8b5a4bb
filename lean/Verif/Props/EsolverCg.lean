import Verif.Lemmas.EsolverCg
import Verif.Lemmas.ArrayDef

/-!
# C57: the contract of the CG and CR eigensolvers

Arithmetic is arbitrary here (no laws): the statements hold of the floating-point programs.
-/

namespace Lis
variable {R S M : Type} {n : ℕ}
variable [Zero R] [One R] [Add R] [Neg R] [Sub R] [Mul R] [Div R] [Star R] [DecidableEq R] [RealOps S] [EigOps R S]

/-- **`lis_ecr`**: the iterates are those of the CR iteration from the initial vector; it stops at the first residual below
the tolerance or after `emaxiter` iterations, reports residual and eigenvalue (plus the shift) of the last iterate, returns
that iterate normalized, and shifts `A` back. -/
theorem lisEcr_contract (K : EKit R S M n) (lt : S → S → Bool) (jr : S) (o : EOpts R S) (s : ESt R S M n)
    (hsz : o.maxiter < s.hist.size) : Ok ((lisEcr lt .success jr o).run K s) fun r => ∃ k,
      let m := shiftIf K o o.sigma s.m
      let q := fun j => (crStep K m)^[j] (crStart K m (eInit o (s.h eV)) jr)
      Stops lt o (fun j => (q j).resid) s.hist r.2.hist k ∧ r.1 = cgOut lt o k (q k) ∧
      r.2.h eV = unit K.base (q k).x ∧ r.2.m = shiftIf K o (-o.sigma) m := by
  unfold lisEcr
  simp only [EProg.run_bind, run_eInit, Option.bind_some, run_eShiftIf, run_eNormalize, run_eMatvec, run_eSetAll,
    ne_eq, not_true_eq_false, if_false, run_eDot, run_eAxpyz', run_eScale, run_eCopy, Ok_obind]
  refine (Ok_eWhile (lt := lt) (o := o) (crStep K (shiftIf K o o.sigma s.m)) (CrAt (shiftIf K o o.sigma s.m))
    (crStart K (shiftIf K o o.sigma s.m) (eInit o (s.h eV)) jr) s hsz
    (fun i q st s h hi => ecrBody_ok K lt o _ i q st s h hi) o.maxiter 0 _ _ (by omega)
    ?_ (fun j _ _ => by omega) (by rfl) (fun _ j _ _ => by omega) (fun _ _ => by rfl)).mono ?_
  · simp [CrAt, crStart]
  · rintro ⟨⟨k, st⟩, s'⟩ ⟨⟨hst, hm, hx, -⟩, hS⟩
    simp only at hst hm hx hS ⊢
    rw [run_cgDone, Ok_some]
    refine ⟨k, hS, by rw [hst]; rfl, by simp [hx], by simp [hm]⟩

/-- **`lis_egcr`**: the same for the generalized CR iteration. -/
theorem lisEgcr_contract (K : EKit R S M n) (lt : S → S → Bool) (jr : S) (o : EOpts R S) (s : ESt R S M n)
    (hsz : o.maxiter < s.hist.size) : Ok ((lisEgcr lt .success jr o).run K s) fun r => ∃ k,
      let m := shiftIf K o o.sigma s.m
      let q := fun j => (gcrStep K m)^[j] (gcrStart K m (eInit o (s.h eV)) jr)
      Stops lt o (fun j => (q j).resid) s.hist r.2.hist k ∧ r.1 = cgOut lt o k (q k) ∧
      r.2.h eV = unit K.base (q k).x ∧ r.2.m = shiftIf K o (-o.sigma) m := by
  unfold lisEgcr
  simp only [EProg.run_bind, run_eInit, Option.bind_some, run_eShiftIf, run_eNormalize, run_eMatvec,
    ne_eq, not_true_eq_false, if_false, run_eDot, run_eAxpyz', run_eScale, run_eCopy, Ok_obind]
  refine (Ok_eWhile (lt := lt) (o := o) (gcrStep K (shiftIf K o o.sigma s.m)) (GcrAt (shiftIf K o o.sigma s.m))
    (gcrStart K (shiftIf K o o.sigma s.m) (eInit o (s.h eV)) jr) s hsz
    (fun i q st s h hi => egcrBody_ok K lt o _ i q st s h hi) o.maxiter 0 _ _ (by omega)
    ?_ (fun j _ _ => by omega) (by rfl) (fun _ j _ _ => by omega) (fun _ _ => by rfl)).mono ?_
  · simp [GcrAt, CrAt, gcrStart]
  · rintro ⟨⟨k, st⟩, s'⟩ ⟨⟨⟨hst, hm, hx, -⟩, -⟩, hS⟩
    simp only at hst hm hx hS ⊢
    rw [run_cgDone, Ok_some]
    refine ⟨k, hS, by rw [hst]; rfl, by simp [hx], by simp [hm]⟩

/-- **`lis_ecg`**: the same for the CG iteration, which starts with a call of the linear solver for the initial vector; the
vector returned is the last iterate as it is. -/
theorem lisEcg_contract (K : EKit R S M n) (rr : Arr R → Arr R → R × R × R) (lt : S → S → Bool) (jl : R) (jr : S)
    (o : EOpts R S) (s : ESt R S M n) (hsz : o.maxiter < s.hist.size)
    (p : Fin n → R)
    (hlin : K.lin false (shiftIf K o o.sigma s.m) (unit K.base (eInit o (s.h eV))) (s.h 3) = (.success, p)) :
    Ok ((lisEcg rr lt .success jl jr o).run K s) fun r => ∃ k,
      let m := shiftIf K o o.sigma s.m
      let q := fun j => (cgStep rr lt o.tol K m)^[j] (cgStart K m (eInit o (s.h eV)) p jl jr)
      Stops lt o (fun j => (q j).resid) s.hist r.2.hist k ∧ r.1 = cgOut lt o k (q k) ∧
      r.2.h eV = (q k).x ∧ r.2.m = shiftIf K o (-o.sigma) m := by
  unfold lisEcg
  simp only [EProg.run_bind, run_eInit, Option.bind_some, run_eShiftIf, run_eNormalize, run_eMatvec, run_eLin]
  have e : K.lin false (shiftIf K o o.sigma s.m)
      (Function.update (Function.update (Function.update s.h eV (eInit o (s.h eV))) 0
        (unit K.base (Function.update s.h eV (eInit o (s.h eV)) 0))) 4
        (K.mv false (shiftIf K o o.sigma s.m) (Function.update (Function.update s.h eV (eInit o (s.h eV))) 0
          (unit K.base (Function.update s.h eV (eInit o (s.h eV)) 0)) 0)) 0)
      (Function.update (Function.update (Function.update s.h eV (eInit o (s.h eV))) 0
        (unit K.base (Function.update s.h eV (eInit o (s.h eV)) 0))) 4
        (K.mv false (shiftIf K o o.sigma s.m) (Function.update (Function.update s.h eV (eInit o (s.h eV))) 0
          (unit K.base (Function.update s.h eV (eInit o (s.h eV)) 0)) 0)) 3) = (.success, p) := by
    rw [← hlin]; simp
  rw [e]
  simp only [ne_eq, not_true_eq_false, if_false, EProg.run_bind, Option.bind_some, run_eCopy, Ok_obind]
  refine (Ok_eWhile (lt := lt) (o := o) (cgStep rr lt o.tol K (shiftIf K o o.sigma s.m)) (CgAt (shiftIf K o o.sigma s.m))
    (cgStart K (shiftIf K o o.sigma s.m) (eInit o (s.h eV)) p jl jr) s hsz
    (fun i q st s h hi => ecgBody_ok K rr lt o _ i q st s h hi) o.maxiter 0 _ _ (by omega)
    ?_ (fun j _ _ => by omega) (by rfl) (fun _ j _ _ => by omega) (fun _ _ => by rfl)).mono ?_
  · simp [CgAt, cgStart]
  · rintro ⟨⟨k, st⟩, s'⟩ ⟨⟨hst, hm, hx, -⟩, hS⟩
    simp only at hst hm hx hS ⊢
    rw [run_cgDone, Ok_some]
    refine ⟨k, hS, by rw [hst]; rfl, by simp [hx], by simp [hm]⟩

/-- **`lis_egcg`**: the same for the generalized CG iteration as programmed. -/
theorem lisEgcg_contract (K : EKit R S M n) (rr : Arr R → Arr R → R × R × R) (lt : S → S → Bool) (jl : R) (jr : S)
    (o : EOpts R S) (s : ESt R S M n) (hsz : o.maxiter < s.hist.size)
    (p : Fin n → R)
    (hlin : K.lin false (shiftIf K o o.sigma s.m) (unit K.base (eInit o (s.h eV))) (s.h 3) = (.success, p)) :
    Ok ((lisEgcg rr lt .success jl jr o).run K s) fun r => ∃ k,
      let m := shiftIf K o o.sigma s.m
      let q := fun j => (gcgStep rr lt o.tol K m)^[j] (cgStart K m (eInit o (s.h eV)) p jl jr)
      Stops lt o (fun j => (q j).resid) s.hist r.2.hist k ∧ r.1 = cgOut lt o k (q k) ∧
      r.2.h eV = (q k).x ∧ r.2.m = shiftIf K o (-o.sigma) m := by
  unfold lisEgcg
  simp only [EProg.run_bind, run_eInit, Option.bind_some, run_eShiftIf, run_eNormalize, run_eMatvec, run_eLin]
  simp only [Function.update_idem, ne_eq, Function.update_self, Function.update_of_ne, Nat.reduceEqDiff, not_false_eq_true,
    OfNat.zero_ne_ofNat, OfNat.ofNat_ne_zero, hlin]
  simp only [not_true_eq_false, if_false, EProg.run_bind, Option.bind_some, run_eCopy, run_eMatvec, Ok_obind]
  refine (Ok_eWhile (lt := lt) (o := o) (gcgStep rr lt o.tol K (shiftIf K o o.sigma s.m)) (GcgAt (shiftIf K o o.sigma s.m))
    (cgStart K (shiftIf K o o.sigma s.m) (eInit o (s.h eV)) p jl jr) s hsz
    (fun i q st s h hi => egcgBody_ok K rr lt o _ i q st s h hi) o.maxiter 0 _ _ (by omega)
    ?_ (fun j _ _ => by omega) (by rfl) (fun _ j _ _ => by omega) (fun _ _ => by rfl)).mono ?_
  · simp [GcgAt, CgAt, cgStart]
  · rintro ⟨⟨k, st⟩, s'⟩ ⟨⟨⟨hst, hm, hx, -⟩, -⟩, hS⟩
    simp only at hst hm hx hS ⊢
    rw [run_cgDone, Ok_some]
    refine ⟨k, hS, by rw [hst]; rfl, by simp [hx], by simp [hm]⟩

/-- an error of `lis_precon_create` or of the linear solver is passed on, and **`A` stays shifted**. -/
theorem lisEcr_error (K : EKit R S M n) (lt : S → S → Bool) (perr : Err) (hp : perr ≠ .success) (jr : S) (o : EOpts R S)
    (s : ESt R S M n) : Ok ((lisEcr lt perr jr o).run K s) fun r =>
      r.1 = ⟨perr, none⟩ ∧ r.2.hist = s.hist ∧ r.2.m = shiftIf K o o.sigma s.m := by
  unfold lisEcr
  simp only [EProg.run_bind, run_eInit, Option.bind_some, run_eShiftIf, run_eNormalize, run_eMatvec, run_eSetAll]
  rw [if_pos hp]
  exact ⟨_, rfl, rfl, rfl, rfl⟩

theorem lisEgcr_error (K : EKit R S M n) (lt : S → S → Bool) (perr : Err) (hp : perr ≠ .success) (jr : S) (o : EOpts R S)
    (s : ESt R S M n) : Ok ((lisEgcr lt perr jr o).run K s) fun r =>
      r.1 = ⟨perr, none⟩ ∧ r.2.hist = s.hist ∧ r.2.m = shiftIf K o o.sigma s.m := by
  unfold lisEgcr
  simp only [EProg.run_bind, run_eInit, Option.bind_some, run_eShiftIf, run_eNormalize, run_eMatvec]
  rw [if_pos hp]
  exact ⟨_, rfl, rfl, rfl, rfl⟩

theorem lisEcg_error (K : EKit R S M n) (rr : Arr R → Arr R → R × R × R) (lt : S → S → Bool) (perr : Err) (jl : R) (jr : S)
    (o : EOpts R S) (s : ESt R S M n)
    (he : (K.lin false (shiftIf K o o.sigma s.m) (unit K.base (eInit o (s.h eV))) (s.h 3)).1 ≠ .success) :
    Ok ((lisEcg rr lt perr jl jr o).run K s) fun r =>
      r.1 = ⟨(K.lin false (shiftIf K o o.sigma s.m) (unit K.base (eInit o (s.h eV))) (s.h 3)).1, none⟩ ∧
      r.2.hist = s.hist ∧ r.2.m = shiftIf K o o.sigma s.m := by
  unfold lisEcg
  simp only [EProg.run_bind, run_eInit, Option.bind_some, run_eShiftIf, run_eNormalize, run_eMatvec, run_eLin]
  simp only [Function.update_idem, ne_eq, Function.update_self, Function.update_of_ne, Nat.reduceEqDiff, not_false_eq_true,
    OfNat.zero_ne_ofNat, OfNat.ofNat_ne_zero]
  rw [if_pos he]
  exact ⟨_, rfl, rfl, rfl, rfl⟩

theorem lisEgcg_error (K : EKit R S M n) (rr : Arr R → Arr R → R × R × R) (lt : S → S → Bool) (perr : Err) (jl : R) (jr : S)
    (o : EOpts R S) (s : ESt R S M n)
    (he : (K.lin false (shiftIf K o o.sigma s.m) (unit K.base (eInit o (s.h eV))) (s.h 3)).1 ≠ .success) :
    Ok ((lisEgcg rr lt perr jl jr o).run K s) fun r =>
      r.1 = ⟨(K.lin false (shiftIf K o o.sigma s.m) (unit K.base (eInit o (s.h eV))) (s.h 3)).1, none⟩ ∧
      r.2.hist = s.hist ∧ r.2.m = shiftIf K o o.sigma s.m := by
  unfold lisEgcg
  simp only [EProg.run_bind, run_eInit, Option.bind_some, run_eShiftIf, run_eNormalize, run_eMatvec, run_eLin]
  simp only [Function.update_idem, ne_eq, Function.update_self, Function.update_of_ne, Nat.reduceEqDiff, not_false_eq_true,
    OfNat.zero_ne_ofNat, OfNat.ofNat_ne_zero]
  rw [if_pos he]
  exact ⟨_, rfl, rfl, rfl, rfl⟩

/-- **`lis_egcg` returns its start vector**: whatever the matrices `A`, `B`, the preconditioner, the 3×3 iteration and the
return code are, the vector returned is the initial vector, only normalized again and again. -/
theorem lisEgcg_start_vector (K : EKit R S M n) (rr : Arr R → Arr R → R × R × R) (lt : S → S → Bool) (jl : R) (jr : S)
    (o : EOpts R S) (s : ESt R S M n) (hsz : o.maxiter < s.hist.size)
    (p : Fin n → R)
    (hlin : K.lin false (shiftIf K o o.sigma s.m) (unit K.base (eInit o (s.h eV))) (s.h 3) = (.success, p)) :
    Ok ((lisEgcg rr lt .success jl jr o).run K s) fun r => ∃ j, j ≤ o.maxiter ∧
      r.2.h eV = (unit K.base)^[j + 1] (eInit o (s.h eV)) := by
  refine (lisEgcg_contract K rr lt jl jr o s hsz p hlin).mono ?_
  rintro r ⟨k, hS, -, hv, -⟩
  simp only at hv
  rw [hv]
  have key : ∀ i, ∃ j, j ≤ i ∧ ((gcgStep rr lt o.tol K (shiftIf K o o.sigma s.m))^[i]
      (cgStart K (shiftIf K o o.sigma s.m) (eInit o (s.h eV)) p jl jr)).x = (unit K.base)^[j + 1] (eInit o (s.h eV)) := by
    intro i
    induction i with
    | zero => exact ⟨0, le_rfl, rfl⟩
    | succ i ih =>
      obtain ⟨j, hj, e⟩ := ih
      rw [Function.iterate_succ_apply']
      generalize (gcgStep rr lt o.tol K (shiftIf K o o.sigma s.m))^[i]
        (cgStart K (shiftIf K o o.sigma s.m) (eInit o (s.h eV)) p jl jr) = q at e ⊢
      by_cases hc : lt (K.base.nrm2 (axpyzV (-1 / (K.base.dot q.Ax q.Bx / K.base.dot q.Bx q.Bx)) q.Ax q.Bx)) o.tol = true
      · refine ⟨j, by omega, ?_⟩
        simp only [gcgStep, hc, if_true]
        exact e
      · refine ⟨j + 1, by omega, ?_⟩
        simp only [gcgStep, hc]
        simp only [Bool.false_eq_true, if_false]
        rw [Function.iterate_succ_apply' _ (j + 1), ← e]
        rfl
  obtain ⟨j, hj, e⟩ := key k
  exact ⟨j, hj.trans hS.le, e⟩

omit [Zero R] [Star R] [DecidableEq R] [Neg R] [Sub R] [One R] [Div R] [Add R] in
theorem arrayScale_defined (n : ℕ) (a : R) (x : Arr R) (h : n ≤ x.size) : Ok (arrayScale n a x) fun y => y.size = x.size := by
  unfold arrayScale
  refine Ok_loop_le (fun _ y => y.size = x.size) (Nat.zero_le n) rfl ?_ fun y h => h
  intro i y _ hi hy
  simp only [Ok_bind, Ok_rd, Ok_wr]
  exact ⟨by omega, by omega, hy⟩

omit [Star R] [DecidableEq R] [Neg R] [Sub R] [One R] [Div R] in
theorem arrayDot_defined (n : ℕ) (x y : Arr R) (hx : n ≤ x.size) (hy : n ≤ y.size) : Ok (arrayDot n x y) fun _ => True := by
  unfold arrayDot
  refine Ok_loop_le (fun _ _ => True) (Nat.zero_le n) trivial ?_ fun y h => h
  intro i t _ hi _
  simp only [Ok_bind, Ok_rd, Ok_pure]
  exact ⟨by omega, by omega, trivial⟩

omit [Star R] [DecidableEq R] [Neg R] [One R] in
theorem arrayNrm2_defined (sqrt : R → R) (n : ℕ) (x : Arr R) (hx : n ≤ x.size) :
    Ok (arrayNrm2 sqrt n x) fun _ => True := by
  unfold arrayNrm2
  rw [Ok_bind]
  refine Ok_loop_le (fun _ _ => True) (Nat.zero_le n) trivial ?_ fun y h => by simp
  intro i t _ hi _
  simp only [Ok_bind, Ok_rd, Ok_pure]
  exact ⟨by omega, trivial⟩

omit [Zero R] [Star R] [DecidableEq R] [Neg R] [Sub R] [One R] [Div R] in
theorem arrayAxpyz_defined (n : ℕ) (a : R) (x y z : Arr R) (hx : n ≤ x.size) (hy : n ≤ y.size) (hz : n ≤ z.size) :
    Ok (arrayAxpyz n a x y z) fun u => u.size = z.size := by
  unfold arrayAxpyz
  refine Ok_loop_le (fun _ u => u.size = z.size) (Nat.zero_le n) rfl ?_ fun y h => h
  intro i u _ hi hu
  simp only [Ok_bind, Ok_rd, Ok_wr]
  exact ⟨by omega, by omega, by omega, hu⟩

/-- the 3×3 iteration stays inside its arrays, for all matrices -/
theorem ritz3_defined (sqrt : R → R) (lt : R → Bool) (maxiter : ℕ) (A3 B3 : Arr R) (s : Ritz R) (hA : 9 ≤ A3.size)
    (hB : 9 ≤ B3.size) (hv : 3 ≤ s.v.size) (hbv : 3 ≤ s.bv.size) (hz : 3 ≤ s.z.size) (hq : 3 ≤ s.q.size) (hw : 9 ≤ s.w.size) :
    Ok (ritz3 sqrt lt maxiter A3 B3 s) fun _ => True := by
  unfold ritz3
  have h0 : Ok (arraySetAll 3 (1 : R) s.v) fun v => v.size = s.v.size := by
    unfold arraySetAll
    refine Ok_loop_le (fun _ v => v.size = s.v.size) (Nat.zero_le 3) rfl ?_ fun v h => h
    intro i v _ hi hv'
    rw [Ok_wr]
    exact ⟨by omega, hv'⟩
  simp only [Ok_bind]
  refine h0.mono fun v hv0 => ?_
  refine Ok_loopB (fun _ t => 3 ≤ t.v.size ∧ 3 ≤ t.bv.size ∧ 3 ≤ t.z.size ∧ 3 ≤ t.q.size ∧ 9 ≤ t.w.size)
    ⟨by simpa [hv0] using hv, hbv, hz, hq, hw⟩ ?_ ?_
  · rintro i t - - ⟨t1, t2, t3, t4, t5⟩
    unfold ritzStep
    simp only [Ok_bind]
    refine (arrayNrm2_defined sqrt 3 t.v t1).mono fun nrm2 _ => ?_
    refine (arrayScale_defined 3 (1 / nrm2) t.v t1).mono fun v' hv' => ?_
    have hmv : Ok (arrayMatvec .ins 3 B3 v' t.bv) fun y => y.size = t.bv.size := by
      unfold arrayMatvec
      simp only [lin3, lin2, mulAt, opWr, Ok_bind, Ok_rd, Ok_wr, Ok_pure, Arr.set_size]
      refine ⟨?_, ?_, ?_, ?_, ?_, ?_, ?_, ?_, ?_, ?_, ?_, ?_, ?_, ?_, ?_, ?_, ?_, ?_, ?_, ?_, ?_, trivial⟩ <;> omega
    refine hmv.mono fun bv hbv' => ?_
    refine (arraySolve_defined 3 A3 bv t.z t.w (by omega) (by omega) t3 (by omega)).mono ?_
    rintro ⟨z, w⟩ ⟨hz', hw'⟩
    simp only at hz' hw' ⊢
    refine (arrayDot_defined 3 bv z (by omega) (by omega)).mono fun mu _ => ?_
    refine (arrayAxpyz_defined 3 (-mu) bv z t.q (by omega) (by omega) t4).mono fun q' hq' => ?_
    refine (arrayNrm2_defined sqrt 3 q' (by omega)).mono fun r3 _ => ?_
    split
    · rw [Ok_pure]
      simp only [if_true, Ok_rd, Ok_pure]
      exact ⟨by omega, by omega, by omega, trivial⟩
    · rw [Ok_bind]
      refine (Ok_copyN 3 z v' (by omega) (by omega)).mono ?_
      rintro v2 ⟨hv2, -, -⟩
      rw [Ok_pure]
      simp only [Bool.false_eq_true, if_false]
      exact ⟨by omega, by omega, by omega, by omega, by omega⟩
  · rintro t ⟨t1, -⟩
    simp only [Ok_rd, Ok_pure]
    exact ⟨by omega, by omega, by omega, trivial⟩

end Lis
