import Verif.Lemmas.Solver

namespace Lis
variable {R S : Type} {n : ℕ}
variable [Zero R] [One R] [Add R] [Neg R] [Mul R] [Div R] [Sub R] [Star R] [DecidableEq R] [RealOps S]

/-- step to the end of a program, forgetting the values computed -/
macro "vauto" hi:ident : tactic => `(tactic|
  (simp only [vCopy, vAxpy, vXpay, vAxpyz, vScale, vSetAll, vPmul, vConj, vFill, mMatvec, mMatvech, mPsolve, mPsolveh,
     vDot, vNhdot, vNrm2, vNrm1]
   repeat' with_reducible first
    | (refine Ok_vop (fun _ _ => ?_))
    | (refine Ok_red (fun _ _ => ?_))
    | (refine Ok_checkResid $hi (fun _ _ _ _ => ?_))
    | (refine Ok_getResidual (fun _ _ => ?_))
    | (refine Ok_setShadow (fun _ => ?_))
    | (refine Ok_qsiEta (fun _ _ _ => ?_))
    | (refine Ok_hist $hi ?_)
    | (refine Ok_pif (fun _ => ?_) (fun _ => ?_))
    | (refine Ok_ret ?_)))

omit [Zero R] [One R] [Add R] [Neg R] [Mul R] [Div R] [Sub R] [Star R] [DecidableEq R] [RealOps S] in
theorem recorded_pos {o : Opts R S} {i : ℕ} {v : S} {a : Arr S} (h : o.mem = true) : Recorded o i v a (a.set i v) := by
  simp [Recorded, h]
omit [Zero R] [One R] [Add R] [Neg R] [Mul R] [Div R] [Sub R] [Star R] [DecidableEq R] [RealOps S] in
theorem recorded_neg {o : Opts R S} {i : ℕ} {v : S} {a : Arr S} (h : ¬ o.mem = true) : Recorded o i v a a := by
  simp [Recorded, h]

/-- close the goals of an `IterOk` statement -/
macro "vdone" : tactic => `(tactic|
  all_goals first
    | (simp (disch := decide) only [VOp.dst, Function.update_of_ne, ne_eq, IterOk]
       first
        | exact ⟨trivial, by assumption, by assumption⟩
        | exact ⟨trivial, trivial, .inl ⟨trivial, by assumption, by assumption⟩⟩
        | exact ⟨trivial, trivial, .inl ⟨trivial, by assumption, recorded_pos (by assumption)⟩⟩
        | exact ⟨trivial, trivial, .inl ⟨trivial, by assumption, recorded_neg (by assumption)⟩⟩)
    | (simp (disch := decide) only [VOp.val, VOp.dst, VRed.run, Function.update_self, Function.update_of_ne, ne_eq, IterOk] at *
       refine ⟨trivial, trivial, .inr ⟨trivial, ?_, ?_⟩⟩
       · first
          | (subst_vars; exact .inr ⟨_, rfl, by assumption⟩)
          | simp_all
       · first
          | exact .inl ⟨trivial, trivial⟩
          | exact .inr ⟨by assumption, by assumption⟩))

theorem cgBody_ok (K : Kit R S n) (op : ℕ → ℕ → VRed) (hop : op = .dot ∨ op = .nhdot) (o : Opts R S) (t : Tols S)
    (i : ℕ) (st : R × S) (s : MSt R S n) (hi : i < s.hist.size) :
    Ok ((cgBody (fun x y => .red (op x y) .ret) o t i st).run K s) (IterOk o t.tol
      (fun h => h (wk 1) = K.mv (h (wk 3)) ∧ (op (wk 3) (wk 1)).run K h = 0) i st.2 s) := by
  rcases hop with rfl | rfl <;> (unfold cgBody; vauto hi; vdone)

theorem bicgBody_ok (K : Kit R S n) (o : Opts R S) (t : Tols S) (i : ℕ) (st : R × S) (s : MSt R S n)
    (hi : i < s.hist.size) :
    Ok ((bicgBody o t i st).run K s) (IterOk o t.tol
      (fun h => (h (wk 2) = K.ps (h (wk 0)) ∧ K.dot (h (wk 1)) (h (wk 2)) = 0) ∨
        (h (wk 2) = K.mv (h (wk 4)) ∧ K.dot (h (wk 5)) (h (wk 2)) = 0)) i st.2 s) := by
  unfold bicgBody; vauto hi; vdone

theorem crBody_ok (K : Kit R S n) (op : ℕ → ℕ → VRed) (hop : op = .dot ∨ op = .nhdot) (o : Opts R S) (t : Tols S)
    (i : ℕ) (st : Unit × S) (s : MSt R S n) (hi : i < s.hist.size) :
    Ok ((crBody (fun x y => .red (op x y) .ret) o t i st).run K s) (IterOk o t.tol
      (fun h => h (wk 4) = K.ps (h (wk 1)) ∧ (op (wk 4) (wk 1)).run K h = 0) i st.2 s) := by
  rcases hop with rfl | rfl <;> (unfold crBody; vauto hi; vdone)

theorem bicrBody_ok (K : Kit R S n) (o : Opts R S) (t : Tols S) (i : ℕ) (st : R × S) (s : MSt R S n)
    (hi : i < s.hist.size) :
    Ok ((bicrBody o t i st).run K s) (IterOk o t.tol
      (fun h => (h (wk 9) = K.mvh (h (wk 5)) ∧ h (wk 8) = K.ps (h (wk 6)) ∧ K.dot (h (wk 9)) (h (wk 8)) = 0) ∨
        (h (wk 7) = K.mv (h (wk 2)) ∧ h (wk 3) = K.psh (h (wk 1)) ∧ K.dot (h (wk 3)) (h (wk 7)) = 0)) i st.2 s) := by
  unfold bicrBody; vauto hi; vdone

theorem cgsBody_ok (K : Kit R S n) (o : Opts R S) (t : Tols S) (i : ℕ) (st : R × S) (s : MSt R S n)
    (hi : i < s.hist.size) :
    Ok ((cgsBody o t i st).run K s) (IterOk o t.tol
      (fun h => K.dot (h (wk 1)) (h (wk 0)) = 0 ∨
        (h (wk 3) = K.ps (h (wk 2)) ∧ h (wk 6) = K.mv (h (wk 3)) ∧ K.dot (h (wk 1)) (h (wk 6)) = 0)) i st.2 s) := by
  unfold cgsBody; vauto hi; vdone

theorem crsBody_ok (K : Kit R S n) (o : Opts R S) (t : Tols S) (i : ℕ) (st : R × S) (s : MSt R S n)
    (hi : i < s.hist.size) :
    Ok ((crsBody o t i st).run K s) (IterOk o t.tol
      (fun h => (h (wk 3) = K.ps (h (wk 0)) ∧ K.dot (h (wk 1)) (h (wk 3)) = 0) ∨
        (h (wk 4) = K.mv (h (wk 2)) ∧ h (wk 5) = K.ps (h (wk 4)) ∧ K.dot (h (wk 1)) (h (wk 5)) = 0)) i st.2 s) := by
  unfold crsBody; vauto hi; vdone

theorem bicgstabBody_ok (K : Kit R S n) (o : Opts R S) (t : Tols S) (i : ℕ) (st : (R × R × R) × S) (s : MSt R S n)
    (hi : i < s.hist.size) :
    Ok ((bicgstabBody o t i st).run K s) (IterOk o t.tol
      (fun h => K.dot (h (wk 0)) (h (wk 1)) = 0 ∨
        (∃ r, h (wk 2) = K.mv (K.ps r) ∧ K.dot (h (wk 2)) r / K.dot (h (wk 2)) (h (wk 2)) = 0)) i st.2 s) := by
  unfold bicgstabBody; vauto hi; vdone

theorem bicrstabBody_ok (K : Kit R S n) (o : Opts R S) (t : Tols S) (i : ℕ) (st : R × S) (s : MSt R S n)
    (hi : i < s.hist.size) :
    Ok ((bicrstabBody o t i st).run K s) (IterOk o t.tol
      (fun h => h (wk 8) = K.ps (h (wk 1)) ∧ K.dot (h (wk 0)) (h (wk 8)) = 0) i st.2 s) := by
  unfold bicrstabBody; vauto hi; vdone

theorem gpbicgBody_ok (K : Kit R S n) (o : Opts R S) (t : Tols S) (i : ℕ) (st : (R × R) × S) (s : MSt R S n)
    (hi : i < s.hist.size) :
    Ok ((gpbicgBody o t i st).run K s) (IterOk o t.tol
      (fun h => (h (wk 4) = K.mv (h (wk 3)) ∧ K.dot (h (wk 0)) (h (wk 4)) = 0) ∨
        K.dot (h (wk 0)) (h (wk 1)) = 0) i st.2 s) := by
  unfold gpbicgBody; vauto hi; vdone

theorem bicgsafeBody_ok (K : Kit R S n) (o : Opts R S) (t : Tols S) (i : ℕ) (st : (R × R) × S) (s : MSt R S n)
    (hi : i < s.hist.size) :
    Ok ((bicgsafeBody o t i st).run K s) (IterOk o t.tol
      (fun h => K.dot (h (wk 0)) (h (wk 1)) = 0) i st.2 s) := by
  unfold bicgsafeBody; vauto hi; vdone

theorem gpbicrBody_ok (K : Kit R S n) (o : Opts R S) (t : Tols S) (i : ℕ) (st : (R × R) × S) (s : MSt R S n)
    (hi : i < s.hist.size) :
    Ok ((gpbicrBody o t i st).run K s) (IterOk o t.tol
      (fun h => (h (wk 4) = K.mv (h (wk 3)) ∧ h (wk 5) = K.ps (h (wk 4)) ∧ K.dot (h (wk 0)) (h (wk 5)) = 0) ∨
        (h (wk 2) = K.ps (h (wk 1)) ∧ K.dot (h (wk 0)) (h (wk 2)) = 0)) i st.2 s) := by
  unfold gpbicrBody; vauto hi; vdone

theorem bicrsafeBody_ok (K : Kit R S n) (o : Opts R S) (t : Tols S) (i : ℕ) (st : (R × R) × S) (s : MSt R S n)
    (hi : i < s.hist.size) :
    Ok ((bicrsafeBody o t i st).run K s) (IterOk o t.tol
      (fun h => h (wk 3) = K.mv (h (wk 2)) ∧ K.dot (h (wk 0)) (h (wk 3)) = 0) i st.2 s) := by
  unfold bicrsafeBody; vauto hi; vdone

theorem cgProg_status (K : Kit R S n) (op : ℕ → ℕ → VRed) (hop : op = .dot ∨ op = .nhdot) (o : Opts R S) (junk : S)
    (s : MSt R S n) (hsz : o.maxiter < s.hist.size) :
    Ok ((cgProg (fun x y => .red (op x y) .ret) junk o).run K s) fun r =>
      Contract K o junk (fun h => h (wk 1) = K.mv (h (wk 3)) ∧ (op (wk 3) (wk 1)).run K h = 0) s r.2 r.1 := by
  unfold cgProg
  refine Ok_solver (by decide) fun hinit => ?_
  vauto hsz
  refine Ok_mainLoop hinit hsz ?_ rfl fun i st s2 hi => cgBody_ok K op hop o _ i st s2 hi
  vlook

/-- C22: status contract of `lis_cg` (src/solver/lis_solver_cg.c:118-216), for any arithmetic; breakdown only with `q = A p` and `<p,q> = 0`. -/
theorem lisCg_status (K : Kit R S n) (o : Opts R S) (junk : S) (s : MSt R S n) (hsz : o.maxiter < s.hist.size) :
    Ok ((lisCg junk o).run K s) fun r =>
      Contract K o junk (fun h => h (wk 1) = K.mv (h (wk 3)) ∧ K.dot (h (wk 3)) (h (wk 1)) = 0) s r.2 r.1 :=
  cgProg_status K VRed.dot (by simp) o junk s hsz

/-- C22: status contract of `lis_cocg` (src/solver/lis_solver_cg.c:630-739), for any arithmetic; breakdown only with `q = A p` and `<p,q> = 0`. -/
theorem lisCocg_status (K : Kit R S n) (o : Opts R S) (junk : S) (s : MSt R S n) (hsz : o.maxiter < s.hist.size) :
    Ok ((lisCocg junk o).run K s) fun r =>
      Contract K o junk (fun h => h (wk 1) = K.mv (h (wk 3)) ∧ K.nhdot (h (wk 3)) (h (wk 1)) = 0) s r.2 r.1 :=
  cgProg_status K VRed.nhdot (by simp) o junk s hsz

theorem crProg_status (K : Kit R S n) (op : ℕ → ℕ → VRed) (hop : op = .dot ∨ op = .nhdot) (o : Opts R S) (junk : S)
    (s : MSt R S n) (hsz : o.maxiter < s.hist.size) :
    Ok ((crProg (fun x y => .red (op x y) .ret) junk o).run K s) fun r =>
      Contract K o junk (fun h => h (wk 4) = K.ps (h (wk 1)) ∧ (op (wk 4) (wk 1)).run K h = 0) s r.2 r.1 := by
  unfold crProg
  refine Ok_solver (by decide) fun hinit => ?_
  vauto hsz
  refine Ok_mainLoop hinit hsz ?_ rfl fun i st s2 hi => crBody_ok K op hop o _ i st s2 hi
  vlook

/-- C25: status contract of `lis_cr` -/
theorem lisCr_status (K : Kit R S n) (o : Opts R S) (junk : S) (s : MSt R S n) (hsz : o.maxiter < s.hist.size) :
    Ok ((lisCr junk o).run K s) fun r =>
      Contract K o junk (fun h => h (wk 4) = K.ps (h (wk 1)) ∧ K.dot (h (wk 4)) (h (wk 1)) = 0) s r.2 r.1 :=
  crProg_status K VRed.dot (by simp) o junk s hsz

/-- C25: status contract of `lis_cocr` -/
theorem lisCocr_status (K : Kit R S n) (o : Opts R S) (junk : S) (s : MSt R S n) (hsz : o.maxiter < s.hist.size) :
    Ok ((lisCocr junk o).run K s) fun r =>
      Contract K o junk (fun h => h (wk 4) = K.ps (h (wk 1)) ∧ K.nhdot (h (wk 4)) (h (wk 1)) = 0) s r.2 r.1 :=
  crProg_status K VRed.nhdot (by simp) o junk s hsz

/-- C25: status contract of `lis_bicg` -/
theorem lisBicg_status (K : Kit R S n) (o : Opts R S) (junk : S) (s : MSt R S n) (hsz : o.maxiter < s.hist.size) :
    Ok ((lisBicg junk o).run K s) fun r => Contract K o junk
      (fun h => (h (wk 2) = K.ps (h (wk 0)) ∧ K.dot (h (wk 1)) (h (wk 2)) = 0) ∨
        (h (wk 2) = K.mv (h (wk 4)) ∧ K.dot (h (wk 5)) (h (wk 2)) = 0)) s r.2 r.1 := by
  unfold lisBicg
  refine Ok_solver (by decide) fun hinit => ?_
  · vauto hsz
    refine Ok_mainLoop hinit hsz ?_ rfl fun i st s2 hi => bicgBody_ok K o _ i st s2 hi
    vlook

/-- C25: status contract of `lis_bicr` -/
theorem lisBicr_status (K : Kit R S n) (o : Opts R S) (junk : S) (s : MSt R S n) (hsz : o.maxiter < s.hist.size) :
    Ok ((lisBicr junk o).run K s) fun r => Contract K o junk
      (fun h => (h (wk 9) = K.mvh (h (wk 5)) ∧ h (wk 8) = K.ps (h (wk 6)) ∧ K.dot (h (wk 9)) (h (wk 8)) = 0) ∨
        (h (wk 7) = K.mv (h (wk 2)) ∧ h (wk 3) = K.psh (h (wk 1)) ∧ K.dot (h (wk 3)) (h (wk 7)) = 0)) s r.2 r.1 := by
  unfold lisBicr
  refine Ok_solver (by decide) fun hinit => ?_
  · vauto hsz
    refine Ok_mainLoop hinit hsz ?_ rfl fun i st s2 hi => bicrBody_ok K o _ i st s2 hi
    vlook

/-- C25: status contract of `lis_cgs` -/
theorem lisCgs_status (K : Kit R S n) (o : Opts R S) (junk : S) (s : MSt R S n) (hsz : o.maxiter < s.hist.size) :
    Ok ((lisCgs junk o).run K s) fun r => Contract K o junk
      (fun h => K.dot (h (wk 1)) (h (wk 0)) = 0 ∨
        (h (wk 3) = K.ps (h (wk 2)) ∧ h (wk 6) = K.mv (h (wk 3)) ∧ K.dot (h (wk 1)) (h (wk 6)) = 0)) s r.2 r.1 := by
  unfold lisCgs
  refine Ok_solver (by decide) fun hinit => ?_
  · vauto hsz
    refine Ok_mainLoop hinit hsz ?_ rfl fun i st s2 hi => cgsBody_ok K o _ i st s2 hi
    vlook

/-- C25: status contract of `lis_crs` -/
theorem lisCrs_status (K : Kit R S n) (o : Opts R S) (junk : S) (s : MSt R S n) (hsz : o.maxiter < s.hist.size) :
    Ok ((lisCrs junk o).run K s) fun r => Contract K o junk
      (fun h => (h (wk 3) = K.ps (h (wk 0)) ∧ K.dot (h (wk 1)) (h (wk 3)) = 0) ∨
        (h (wk 4) = K.mv (h (wk 2)) ∧ h (wk 5) = K.ps (h (wk 4)) ∧ K.dot (h (wk 1)) (h (wk 5)) = 0)) s r.2 r.1 := by
  unfold lisCrs
  refine Ok_solver (by decide) fun hinit => ?_
  · vauto hsz
    refine Ok_mainLoop hinit hsz ?_ rfl fun i st s2 hi => crsBody_ok K o _ i st s2 hi
    vlook

/-- C25: status contract of `lis_bicgstab` -/
theorem lisBicgstab_status (K : Kit R S n) (o : Opts R S) (junk : S) (s : MSt R S n) (hsz : o.maxiter < s.hist.size) :
    Ok ((lisBicgstab junk o).run K s) fun r => Contract K o junk
      (fun h => K.dot (h (wk 0)) (h (wk 1)) = 0 ∨
        (∃ r, h (wk 2) = K.mv (K.ps r) ∧ K.dot (h (wk 2)) r / K.dot (h (wk 2)) (h (wk 2)) = 0)) s r.2 r.1 := by
  unfold lisBicgstab
  vauto hsz
  refine (Ok_solver (junk := junk) (brk := (fun h => K.dot (h (wk 0)) (h (wk 1)) = 0 ∨
        (∃ r, h (wk 2) = K.mv (K.ps r) ∧ K.dot (h (wk 2)) r / K.dot (h (wk 2)) (h (wk 2)) = 0)))
    (by decide) fun hinit => ?_).mono fun r hr => Contract.pre ?_ ?_ ?_ hr
  · vauto hsz
    refine Ok_mainLoop hinit hsz ?_ rfl fun i st s2 hi => bicgstabBody_ok K o _ i st s2 hi
    vlook
  all_goals vlook

/-- C25: status contract of `lis_bicrstab` -/
theorem lisBicrstab_status (K : Kit R S n) (o : Opts R S) (junk : S) (s : MSt R S n) (hsz : o.maxiter < s.hist.size) :
    Ok ((lisBicrstab junk o).run K s) fun r => Contract K o junk
      (fun h => h (wk 8) = K.ps (h (wk 1)) ∧ K.dot (h (wk 0)) (h (wk 8)) = 0) s r.2 r.1 := by
  unfold lisBicrstab
  refine Ok_solver (by decide) fun hinit => ?_
  · vauto hsz
    refine Ok_mainLoop hinit hsz ?_ rfl fun i st s2 hi => bicrstabBody_ok K o _ i st s2 hi
    vlook

/-- C25: status contract of `lis_gpbicg` -/
theorem lisGpbicg_status (K : Kit R S n) (o : Opts R S) (junk : S) (s : MSt R S n) (hsz : o.maxiter < s.hist.size) :
    Ok ((lisGpbicg junk o).run K s) fun r => Contract K o junk
      (fun h => (h (wk 4) = K.mv (h (wk 3)) ∧ K.dot (h (wk 0)) (h (wk 4)) = 0) ∨
        K.dot (h (wk 0)) (h (wk 1)) = 0) s r.2 r.1 := by
  unfold lisGpbicg
  refine Ok_solver (by decide) fun hinit => ?_
  · vauto hsz
    refine Ok_mainLoop hinit hsz ?_ rfl fun i st s2 hi => gpbicgBody_ok K o _ i st s2 hi
    vlook

/-- C25: status contract of `lis_bicgsafe` -/
theorem lisBicgsafe_status (K : Kit R S n) (o : Opts R S) (junk : S) (s : MSt R S n) (hsz : o.maxiter < s.hist.size) :
    Ok ((lisBicgsafe junk o).run K s) fun r => Contract K o junk
      (fun h => K.dot (h (wk 0)) (h (wk 1)) = 0) s r.2 r.1 := by
  unfold lisBicgsafe
  refine Ok_solver (by decide) fun hinit => ?_
  · vauto hsz
    refine Ok_mainLoop hinit hsz ?_ rfl fun i st s2 hi => bicgsafeBody_ok K o _ i st s2 hi
    vlook

/-- C25: status contract of `lis_gpbicr` -/
theorem lisGpbicr_status (K : Kit R S n) (o : Opts R S) (junk : S) (s : MSt R S n) (hsz : o.maxiter < s.hist.size) :
    Ok ((lisGpbicr junk o).run K s) fun r => Contract K o junk
      (fun h => (h (wk 4) = K.mv (h (wk 3)) ∧ h (wk 5) = K.ps (h (wk 4)) ∧ K.dot (h (wk 0)) (h (wk 5)) = 0) ∨
        (h (wk 2) = K.ps (h (wk 1)) ∧ K.dot (h (wk 0)) (h (wk 2)) = 0)) s r.2 r.1 := by
  unfold lisGpbicr
  refine Ok_solver (by decide) fun hinit => ?_
  · vauto hsz
    refine Ok_mainLoop hinit hsz ?_ rfl fun i st s2 hi => gpbicrBody_ok K o _ i st s2 hi
    vlook

/-- C25: status contract of `lis_bicrsafe` -/
theorem lisBicrsafe_status (K : Kit R S n) (o : Opts R S) (junk : S) (s : MSt R S n) (hsz : o.maxiter < s.hist.size) :
    Ok ((lisBicrsafe junk o).run K s) fun r => Contract K o junk
      (fun h => h (wk 3) = K.mv (h (wk 2)) ∧ K.dot (h (wk 0)) (h (wk 3)) = 0) s r.2 r.1 := by
  unfold lisBicrsafe
  refine Ok_solver (by decide) fun hinit => ?_
  · vauto hsz
    refine Ok_mainLoop hinit hsz ?_ rfl fun i st s2 hi => bicrsafeBody_ok K o _ i st s2 hi
    vlook

end Lis
