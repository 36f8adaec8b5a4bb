import Verif.Lemmas.SolverRes
import Verif.Props.SolverStatus

namespace Lis
variable {R S : Type} {n : ℕ} [CommRing R] [Div R] [Star R] [DecidableEq R] [RealOps S]

/-- `r` of a solver holds `b - A x` -/
def HoldsRes (K : Kit R S n) (r : ℕ) (h : MHeap R n) : Prop := ∀ j, h r j = h hB j - K.mv (h hX) j

macro "vsize" : tactic => `(tactic| first | rfl | exact Recorded.size (by assumption) | trivial)
macro "vresdone" : tactic => `(tactic|
  all_goals first
    | exact ⟨Or.inr ⟨rfl, rfl, rfl, by vlook, by vlook⟩, by vsize⟩
    | exact ⟨Or.inl (resOf_of (by assumption) (by vlin)), by vsize⟩
    | exact ⟨And.intro (by vlin) (resOf_of (by assumption) (by vlin)), by vsize⟩)

theorem cgBody_res (K : Kit R S n) (hlin : K.Linear) (op : ℕ → ℕ → VRed) (o : Opts R S) (t : Tols S)
    (i : ℕ) (st : R × S) (s : MSt R S n) (hi : i < s.hist.size) (hI : HoldsRes K (wk 2) s.h) :
    Ok ((cgBody (fun x y => .red (op x y) .ret) o t i st).run K s) fun r => IterRes K o t.bnrm
      (fun _ _ h => HoldsRes K (wk 2) h) i st.2 s r ∧ r.2.hist.size = s.hist.size := by
  unfold HoldsRes at *
  unfold cgBody
  vautoL hlin hi
  vresdone

theorem bicgBody_res (K : Kit R S n) (hlin : K.Linear) (o : Opts R S) (t : Tols S)
    (i : ℕ) (st : R × S) (s : MSt R S n) (hi : i < s.hist.size) (hI : HoldsRes K (wk 0) s.h) :
    Ok ((bicgBody o t i st).run K s) fun r => IterRes K o t.bnrm
      (fun _ _ h => HoldsRes K (wk 0) h) i st.2 s r ∧ r.2.hist.size = s.hist.size := by
  unfold HoldsRes at *
  unfold bicgBody
  vautoL hlin hi
  vresdone

theorem cgsBody_res (K : Kit R S n) (hlin : K.Linear) (o : Opts R S) (t : Tols S)
    (i : ℕ) (st : R × S) (s : MSt R S n) (hi : i < s.hist.size) (hI : HoldsRes K (wk 0) s.h) :
    Ok ((cgsBody o t i st).run K s) fun r => IterRes K o t.bnrm
      (fun _ _ h => HoldsRes K (wk 0) h) i st.2 s r ∧ r.2.hist.size = s.hist.size := by
  unfold HoldsRes at *
  unfold cgsBody
  vautoL hlin hi
  vresdone

theorem crsBody_res (K : Kit R S n) (hlin : K.Linear) (o : Opts R S) (t : Tols S)
    (i : ℕ) (st : R × S) (s : MSt R S n) (hi : i < s.hist.size) (hI : HoldsRes K (wk 0) s.h) :
    Ok ((crsBody o t i st).run K s) fun r => IterRes K o t.bnrm
      (fun _ _ h => HoldsRes K (wk 0) h) i st.2 s r ∧ r.2.hist.size = s.hist.size := by
  unfold HoldsRes at *
  unfold crsBody
  vautoL hlin hi
  vresdone

theorem bicgstabBody_res (K : Kit R S n) (hlin : K.Linear) (o : Opts R S) (t : Tols S)
    (i : ℕ) (st : (R × R × R) × S) (s : MSt R S n) (hi : i < s.hist.size) (hI : HoldsRes K (wk 1) s.h) :
    Ok ((bicgstabBody o t i st).run K s) fun r => IterRes K o t.bnrm
      (fun _ _ h => HoldsRes K (wk 1) h) i st.2 s r ∧ r.2.hist.size = s.hist.size := by
  unfold HoldsRes at *
  unfold bicgstabBody
  vautoL hlin hi
  vresdone

theorem bicrstabBody_res (K : Kit R S n) (hlin : K.Linear) (o : Opts R S) (t : Tols S)
    (i : ℕ) (st : R × S) (s : MSt R S n) (hi : i < s.hist.size) (hI : HoldsRes K (wk 1) s.h) :
    Ok ((bicrstabBody o t i st).run K s) fun r => IterRes K o t.bnrm
      (fun _ _ h => HoldsRes K (wk 1) h) i st.2 s r ∧ r.2.hist.size = s.hist.size := by
  unfold HoldsRes at *
  unfold bicrstabBody
  vautoL hlin hi
  vresdone

/-- CR keeps `q = A p` -/
theorem crBody_res (K : Kit R S n) (hlin : K.Linear) (op : ℕ → ℕ → VRed) (o : Opts R S) (t : Tols S)
    (i : ℕ) (st : Unit × S) (s : MSt R S n) (hi : i < s.hist.size) (hI : HoldsRes K (wk 2) s.h)
    (hJ : ∀ j, s.h (wk 1) j = K.mv (s.h (wk 3)) j) :
    Ok ((crBody (fun x y => .red (op x y) .ret) o t i st).run K s) fun r => IterRes K o t.bnrm
      (fun _ _ h => HoldsRes K (wk 2) h ∧ ∀ j, h (wk 1) j = K.mv (h (wk 3)) j) i st.2 s r ∧
      r.2.hist.size = s.hist.size := by
  unfold HoldsRes at *
  unfold crBody
  vautoL hlin hi
  vresdone

/-- BiCR keeps `ap = A p` -/
theorem bicrBody_res (K : Kit R S n) (hlin : K.Linear) (o : Opts R S) (t : Tols S)
    (i : ℕ) (st : R × S) (s : MSt R S n) (hi : i < s.hist.size) (hI : HoldsRes K (wk 0) s.h)
    (hJ : ∀ j, s.h (wk 6) j = K.mv (s.h (wk 4)) j) :
    Ok ((bicrBody o t i st).run K s) fun r => IterRes K o t.bnrm
      (fun _ _ h => HoldsRes K (wk 0) h ∧ ∀ j, h (wk 6) j = K.mv (h (wk 4)) j) i st.2 s r ∧
      r.2.hist.size = s.hist.size := by
  unfold HoldsRes at *
  unfold bicrBody
  vautoL hlin hi
  vresdone

/-- GPBiCG keeps, from the second iteration on, `t = r + A z` and `w = A p + A mt_old - A mr + beta A u` -/
def GpInv (K : Kit R S n) (i : ℕ) (sc : R × R) (h : MHeap R n) : Prop :=
  HoldsRes K (wk 1) h ∧ (i ≠ 1 → ∀ j, h (wk 6) j = h (wk 1) j + K.mv (h (wk 12)) j) ∧
  (i ≠ 1 → ∀ j, h (wk 11) j = K.mv (h (wk 3)) j + K.mv (h (wk 13)) j - K.mv (h (wk 2)) j + sc.2 * K.mv (h (wk 9)) j)

theorem gpbicgBody_res (K : Kit R S n) (hlin : K.Linear) (o : Opts R S) (t : Tols S)
    (i : ℕ) (st : (R × R) × S) (s : MSt R S n) (hi : i < s.hist.size) (hI : GpInv K i st.1 s.h) :
    Ok ((gpbicgBody o t i st).run K s) fun r => IterRes K o t.bnrm (GpInv K) i st.2 s r ∧
      r.2.hist.size = s.hist.size := by
  unfold GpInv HoldsRes at *
  obtain ⟨hI, hJ1, hJ2⟩ := hI
  by_cases h1 : i = 1
  · clear hJ1 hJ2
    subst h1
    unfold gpbicgBody
    vautoL hlin hi
    vresdone
  · replace hJ1 := hJ1 h1
    replace hJ2 := hJ2 h1
    unfold gpbicgBody
    vautoL hlin hi
    vresdone

/-- BiCGSafe keeps `ap = A p`, `amr = A mr` and, from the second iteration on, `y = A z` -/
def SafeInv (K : Kit R S n) (i : ℕ) (_ : R × R) (h : MHeap R n) : Prop :=
  HoldsRes K (wk 1) h ∧ (∀ j, h (wk 5) j = K.mv (h (wk 4)) j) ∧ (∀ j, h (wk 3) j = K.mv (h (wk 2)) j) ∧
  (i ≠ 1 → ∀ j, h (wk 8) j = K.mv (h (wk 10)) j)

theorem bicgsafeBody_res (K : Kit R S n) (hlin : K.Linear) (o : Opts R S) (t : Tols S)
    (i : ℕ) (st : (R × R) × S) (s : MSt R S n) (hi : i < s.hist.size) (hI : SafeInv K i st.1 s.h) :
    Ok ((bicgsafeBody o t i st).run K s) fun r => IterRes K o t.bnrm (SafeInv K) i st.2 s r ∧
      r.2.hist.size = s.hist.size := by
  unfold SafeInv HoldsRes at *
  obtain ⟨hI, hJ1, hJ2, hJ3⟩ := hI
  by_cases h1 : i = 1
  · clear hJ3
    subst h1
    unfold bicgsafeBody
    vautoL hlin hi
    vresdone
  · replace hJ3 := hJ3 h1
    unfold bicgsafeBody
    vautoL hlin hi
    vresdone

theorem gpbicrBody_res (K : Kit R S n) (hlin : K.Linear) (o : Opts R S) (t : Tols S)
    (i : ℕ) (st : (R × R) × S) (s : MSt R S n) (hi : i < s.hist.size) (hI : GpInv K i st.1 s.h) :
    Ok ((gpbicrBody o t i st).run K s) fun r => IterRes K o t.bnrm (GpInv K) i st.2 s r ∧
      r.2.hist.size = s.hist.size := by
  unfold GpInv HoldsRes at *
  obtain ⟨hI, hJ1, hJ2⟩ := hI
  by_cases h1 : i = 1
  · clear hJ1 hJ2
    subst h1
    unfold gpbicrBody
    vautoL hlin hi
    vresdone
  · replace hJ1 := hJ1 h1
    replace hJ2 := hJ2 h1
    unfold gpbicrBody
    vautoL hlin hi
    vresdone

theorem bicrsafeBody_res (K : Kit R S n) (hlin : K.Linear) (o : Opts R S) (t : Tols S)
    (i : ℕ) (st : (R × R) × S) (s : MSt R S n) (hi : i < s.hist.size) (hI : SafeInv K i st.1 s.h) :
    Ok ((bicrsafeBody o t i st).run K s) fun r => IterRes K o t.bnrm (SafeInv K) i st.2 s r ∧
      r.2.hist.size = s.hist.size := by
  unfold SafeInv HoldsRes at *
  obtain ⟨hI, hJ1, hJ2, hJ3⟩ := hI
  by_cases h1 : i = 1
  · clear hJ3
    subst h1
    unfold bicrsafeBody
    vautoL hlin hi
    vresdone
  · replace hJ3 := hJ3 h1
    unfold bicrsafeBody
    vautoL hlin hi
    vresdone

theorem cgProg_residual (K : Kit R S n) (hlin : K.Linear) (op : ℕ → ℕ → VRed) (o : Opts R S) (junk : S) (s : MSt R S n)
    (hsz : o.maxiter < s.hist.size) (hz : o.initZero → s.h hX = 0) :
    Ok ((cgProg (fun x y => .red (op x y) .ret) junk o).run K s) fun r => ReportsTrue K o junk s r.2 r.1 := by
  unfold cgProg
  refine Ok_solverRes hlin (by decide) hz fun w hw => ?_
  vautoL hlin hsz
  refine Ok_mainLoopRes (s := s) (fun _ _ h => HoldsRes K (wk 2) h) hsz ?_ fun i st s2 h1 hi hI => cgBody_res K hlin op o _ i st s2 hi hI
  unfold HoldsRes
  vlin

/-- C23: in exact arithmetic `lis_cg` reports the residual of the `x` it returns, for every linear `A`, every
preconditioner, any inner products and norms. -/
theorem lisCg_residual (K : Kit R S n) (hlin : K.Linear) (o : Opts R S) (junk : S) (s : MSt R S n)
    (hsz : o.maxiter < s.hist.size) (hz : o.initZero → s.h hX = 0) :
    Ok ((lisCg junk o).run K s) fun r => ReportsTrue K o junk s r.2 r.1 :=
  cgProg_residual K hlin VRed.dot o junk s hsz hz

/-- C25: in exact arithmetic `lis_cocg` reports the residual of the `x` it returns, for every linear `A`, every
preconditioner, any inner products and norms. -/
theorem lisCocg_residual (K : Kit R S n) (hlin : K.Linear) (o : Opts R S) (junk : S) (s : MSt R S n)
    (hsz : o.maxiter < s.hist.size) (hz : o.initZero → s.h hX = 0) :
    Ok ((lisCocg junk o).run K s) fun r => ReportsTrue K o junk s r.2 r.1 :=
  cgProg_residual K hlin VRed.nhdot o junk s hsz hz

theorem crProg_residual (K : Kit R S n) (hlin : K.Linear) (op : ℕ → ℕ → VRed) (o : Opts R S) (junk : S) (s : MSt R S n)
    (hsz : o.maxiter < s.hist.size) (hz : o.initZero → s.h hX = 0) :
    Ok ((crProg (fun x y => .red (op x y) .ret) junk o).run K s) fun r => ReportsTrue K o junk s r.2 r.1 := by
  unfold crProg
  refine Ok_solverRes hlin (by decide) hz fun w hw => ?_
  vautoL hlin hsz
  refine Ok_mainLoopRes (s := s) (fun _ _ h => HoldsRes K (wk 2) h ∧ ∀ j, h (wk 1) j = K.mv (h (wk 3)) j) hsz ?_ fun i st s2 h1 hi hI => crBody_res K hlin op o _ i st s2 hi hI.1 hI.2
  unfold HoldsRes
  vlin

/-- C25: in exact arithmetic `lis_cr` reports the residual of the `x` it returns, for every linear `A`, every
preconditioner, any inner products and norms. -/
theorem lisCr_residual (K : Kit R S n) (hlin : K.Linear) (o : Opts R S) (junk : S) (s : MSt R S n)
    (hsz : o.maxiter < s.hist.size) (hz : o.initZero → s.h hX = 0) :
    Ok ((lisCr junk o).run K s) fun r => ReportsTrue K o junk s r.2 r.1 :=
  crProg_residual K hlin VRed.dot o junk s hsz hz

/-- C25: in exact arithmetic `lis_cocr` reports the residual of the `x` it returns, for every linear `A`, every
preconditioner, any inner products and norms. -/
theorem lisCocr_residual (K : Kit R S n) (hlin : K.Linear) (o : Opts R S) (junk : S) (s : MSt R S n)
    (hsz : o.maxiter < s.hist.size) (hz : o.initZero → s.h hX = 0) :
    Ok ((lisCocr junk o).run K s) fun r => ReportsTrue K o junk s r.2 r.1 :=
  crProg_residual K hlin VRed.nhdot o junk s hsz hz

/-- C25: as C23, for `lis_bicg` -/
theorem lisBicg_residual (K : Kit R S n) (hlin : K.Linear) (o : Opts R S) (junk : S) (s : MSt R S n)
    (hsz : o.maxiter < s.hist.size) (hz : o.initZero → s.h hX = 0) :
    Ok ((lisBicg junk o).run K s) fun r => ReportsTrue K o junk s r.2 r.1 := by
  unfold lisBicg
  refine Ok_solverRes hlin (by decide) hz fun w hw => ?_
  vautoL hlin hsz
  refine Ok_mainLoopRes (s := s) (fun _ _ h => HoldsRes K (wk 0) h) hsz ?_ fun i st s2 h1 hi hI => bicgBody_res K hlin o _ i st s2 hi hI
  unfold HoldsRes
  vlin

/-- C25: as C23, for `lis_bicr` -/
theorem lisBicr_residual (K : Kit R S n) (hlin : K.Linear) (o : Opts R S) (junk : S) (s : MSt R S n)
    (hsz : o.maxiter < s.hist.size) (hz : o.initZero → s.h hX = 0) :
    Ok ((lisBicr junk o).run K s) fun r => ReportsTrue K o junk s r.2 r.1 := by
  unfold lisBicr
  refine Ok_solverRes hlin (by decide) hz fun w hw => ?_
  vautoL hlin hsz
  refine Ok_mainLoopRes (s := s) (fun _ _ h => HoldsRes K (wk 0) h ∧ ∀ j, h (wk 6) j = K.mv (h (wk 4)) j) hsz ?_ fun i st s2 h1 hi hI => bicrBody_res K hlin o _ i st s2 hi hI.1 hI.2
  unfold HoldsRes
  vlin

/-- C25: as C23, for `lis_cgs` -/
theorem lisCgs_residual (K : Kit R S n) (hlin : K.Linear) (o : Opts R S) (junk : S) (s : MSt R S n)
    (hsz : o.maxiter < s.hist.size) (hz : o.initZero → s.h hX = 0) :
    Ok ((lisCgs junk o).run K s) fun r => ReportsTrue K o junk s r.2 r.1 := by
  unfold lisCgs
  refine Ok_solverRes hlin (by decide) hz fun w hw => ?_
  vautoL hlin hsz
  refine Ok_mainLoopRes (s := s) (fun _ _ h => HoldsRes K (wk 0) h) hsz ?_ fun i st s2 h1 hi hI => cgsBody_res K hlin o _ i st s2 hi hI
  unfold HoldsRes
  vlin

/-- C25: as C23, for `lis_crs` -/
theorem lisCrs_residual (K : Kit R S n) (hlin : K.Linear) (o : Opts R S) (junk : S) (s : MSt R S n)
    (hsz : o.maxiter < s.hist.size) (hz : o.initZero → s.h hX = 0) :
    Ok ((lisCrs junk o).run K s) fun r => ReportsTrue K o junk s r.2 r.1 := by
  unfold lisCrs
  refine Ok_solverRes hlin (by decide) hz fun w hw => ?_
  vautoL hlin hsz
  refine Ok_mainLoopRes (s := s) (fun _ _ h => HoldsRes K (wk 0) h) hsz ?_ fun i st s2 h1 hi hI => crsBody_res K hlin o _ i st s2 hi hI
  unfold HoldsRes
  vlin

/-- C25: as C23, for `lis_bicgstab` -/
theorem lisBicgstab_residual (K : Kit R S n) (hlin : K.Linear) (o : Opts R S) (junk : S) (s : MSt R S n)
    (hsz : o.maxiter < s.hist.size) (hz : o.initZero → s.h hX = 0) :
    Ok ((lisBicgstab junk o).run K s) fun r => ReportsTrue K o junk s r.2 r.1 := by
  unfold lisBicgstab
  vautoL hlin hsz
  refine (Ok_solverRes (junk := junk) hlin (by decide) (fun h => ?_) fun w hw => ?_).mono fun r hr => ReportsTrue.pre ?_ ?_ hr
  · vlook; exact hz h
  · vautoL hlin hsz
    refine Ok_mainLoopRes (fun _ _ h => HoldsRes K (wk 1) h) hsz ?_ fun i st s2 h1 hi hI => bicgstabBody_res K hlin o _ i st s2 hi hI
    unfold HoldsRes
    vlin
  all_goals vlook

/-- C25: as C23, for `lis_bicrstab` -/
theorem lisBicrstab_residual (K : Kit R S n) (hlin : K.Linear) (o : Opts R S) (junk : S) (s : MSt R S n)
    (hsz : o.maxiter < s.hist.size) (hz : o.initZero → s.h hX = 0) :
    Ok ((lisBicrstab junk o).run K s) fun r => ReportsTrue K o junk s r.2 r.1 := by
  unfold lisBicrstab
  refine Ok_solverRes hlin (by decide) hz fun w hw => ?_
  vautoL hlin hsz
  refine Ok_mainLoopRes (s := s) (fun _ _ h => HoldsRes K (wk 1) h) hsz ?_ fun i st s2 h1 hi hI => bicrstabBody_res K hlin o _ i st s2 hi hI
  unfold HoldsRes
  vlin

/-- C25: as C23, for `lis_gpbicg` -/
theorem lisGpbicg_residual (K : Kit R S n) (hlin : K.Linear) (o : Opts R S) (junk : S) (s : MSt R S n)
    (hsz : o.maxiter < s.hist.size) (hz : o.initZero → s.h hX = 0) :
    Ok ((lisGpbicg junk o).run K s) fun r => ReportsTrue K o junk s r.2 r.1 := by
  unfold lisGpbicg
  refine Ok_solverRes hlin (by decide) hz fun w hw => ?_
  vautoL hlin hsz
  refine Ok_mainLoopRes (s := s) (GpInv K) hsz ?_ fun i st s2 h1 hi hI => gpbicgBody_res K hlin o _ i st s2 hi hI
  unfold GpInv HoldsRes
  exact ⟨by vlin, fun h => absurd rfl h, fun h => absurd rfl h⟩

/-- C25: as C23, for `lis_bicgsafe` -/
theorem lisBicgsafe_residual (K : Kit R S n) (hlin : K.Linear) (o : Opts R S) (junk : S) (s : MSt R S n)
    (hsz : o.maxiter < s.hist.size) (hz : o.initZero → s.h hX = 0) :
    Ok ((lisBicgsafe junk o).run K s) fun r => ReportsTrue K o junk s r.2 r.1 := by
  unfold lisBicgsafe
  refine Ok_solverRes hlin (by decide) hz fun w hw => ?_
  vautoL hlin hsz
  refine Ok_mainLoopRes (s := s) (SafeInv K) hsz ?_ fun i st s2 h1 hi hI => bicgsafeBody_res K hlin o _ i st s2 hi hI
  unfold SafeInv HoldsRes
  exact ⟨by vlin, by vlin, by vlin, fun h => absurd rfl h⟩

/-- C25: as C23, for `lis_gpbicr` -/
theorem lisGpbicr_residual (K : Kit R S n) (hlin : K.Linear) (o : Opts R S) (junk : S) (s : MSt R S n)
    (hsz : o.maxiter < s.hist.size) (hz : o.initZero → s.h hX = 0) :
    Ok ((lisGpbicr junk o).run K s) fun r => ReportsTrue K o junk s r.2 r.1 := by
  unfold lisGpbicr
  refine Ok_solverRes hlin (by decide) hz fun w hw => ?_
  vautoL hlin hsz
  refine Ok_mainLoopRes (s := s) (GpInv K) hsz ?_ fun i st s2 h1 hi hI => gpbicrBody_res K hlin o _ i st s2 hi hI
  unfold GpInv HoldsRes
  exact ⟨by vlin, fun h => absurd rfl h, fun h => absurd rfl h⟩

/-- C25: as C23, for `lis_bicrsafe` -/
theorem lisBicrsafe_residual (K : Kit R S n) (hlin : K.Linear) (o : Opts R S) (junk : S) (s : MSt R S n)
    (hsz : o.maxiter < s.hist.size) (hz : o.initZero → s.h hX = 0) :
    Ok ((lisBicrsafe junk o).run K s) fun r => ReportsTrue K o junk s r.2 r.1 := by
  unfold lisBicrsafe
  refine Ok_solverRes hlin (by decide) hz fun w hw => ?_
  vautoL hlin hsz
  refine Ok_mainLoopRes (s := s) (SafeInv K) hsz ?_ fun i st s2 h1 hi hI => bicrsafeBody_res K hlin o _ i st s2 hi hI
  unfold SafeInv HoldsRes
  exact ⟨by vlin, by vlin, by vlin, fun h => absurd rfl h⟩

end Lis
