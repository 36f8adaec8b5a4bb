import Verif.Props.Mpi
import Verif.Props.ArraySolver
import Verif.Model.MpiSolver
import Mathlib.Data.Real.Star

/-!
# C34: every solver program computes on `P` ranks what it computes on one
-/

namespace Lis
open Finset
variable {R : Type}

theorem foldl_add_sum [AddCommMonoid R] (l : List R) (a : R) : l.foldl (· + ·) a = a + l.sum := by
  induction l generalizing a with
  | nil => simp
  | cons x l ih => rw [List.foldl_cons, ih, List.sum_cons, add_assoc]

theorem mpiAllreduce_talks [AddCommMonoid R] {P : ℕ} (v : R) (w : ℕ → R) :
    (mpiAllreduce P v).Talks (List.range P) (fun _ => .scalars [v]) (List.range P) (fun i => .scalars [w i])
      fun q => ∃ c, q = .ret c ∧ c = ∑ s ∈ range P, w s := by
  unfold mpiAllreduce
  obtain ⟨u, hu, _⟩ := Proc.Sends.loop (M := Msg R) (n := P) (s := ())
    (f := fun i _ => .send i (.scalars [v]) (pure ())) (fun _ _ => True) (fun i => (i, .scalars [v])) trivial (by
      intro i s hi _
      exact ⟨(), rfl, trivial⟩)
  rw [hu]
  refine ⟨_, Proc.sendAll_bind _ _ _, ?_⟩
  refine ⟨∑ s ∈ range P, w s, ?_, rfl⟩
  show Proc.lift (Option.bind (List.mapM Msg.asScalars ((List.range P).map fun i => Msg.scalars [w i])) _) = _
  rw [mapM_asScalars (List.range P) (fun i => [w i])]
  show Proc.ret _ = _
  rw [foldl_add_sum]
  congr 1
  rw [zero_add, List.sum_flatten, List.map_map]
  have : ∀ P, ((List.range P).map (List.sum ∘ fun i => [w i])).sum = ∑ s ∈ range P, w s := by
    intro P
    induction P with
    | zero => simp
    | succ P ih => rw [List.range_succ, List.map_append, List.sum_append, ih, sum_range_succ]; simp
  exact this P

theorem mpiAllreduce_collective [AddCommMonoid R] {P : ℕ} (v : ℕ → R) :
    Collective P (fun r => mpiAllreduce P (v r)) fun _ c => c = ∑ s ∈ range P, v s := by
  haveI : Nonempty R := ⟨0⟩
  exact Collective.talk (nb := fun _ => List.range P) (m := fun r _ => .scalars [v r])
    (fun r hr => mpiAllreduce_talks (v r) v)
    (fun _ _ => ⟨List.nodup_range, fun d hd => by simpa using hd⟩) (fun r s hr hs => by simp [hr, hs])

/-! ### what the ranks hold -/

/-- rank `r` has `n r` rows from `rg r` on; every rank's vectors are its parts of the global vectors `g` -/
def DistHeap [Zero R] {gn : ℕ} (P : ℕ) (rg n : ℕ → ℕ) (h : ℕ → Vecs R) (g : MHeap R gn) : Prop :=
  ∀ r, r < P → (h r).Good (n r) ∧ (h r).vecs (n r) = fun v => localPart (rg r) (n r) (g v)

/-- the local preconditioner, triangular solve and diagonal of rank `r` are the global ones on its rows -/
structure LocalOf [Zero R] {gn : ℕ} (is n : ℕ) (ps psh ls : (Fin gn → R) → Fin gn → R) (rdg : Fin gn → R)
    (psl pshl lsl : (Fin n → R) → Fin n → R) (rdgl : Fin n → R) : Prop where
  ps : ∀ v, psl (localPart is n v) = localPart is n (ps v)
  psh : ∀ v, pshl (localPart is n v) = localPart is n (psh v)
  ls : ∀ v, lsl (localPart is n v) = localPart is n (ls v)
  rdg : rdgl = localPart is n rdg

section
variable [NonUnitalNonAssocSemiring R] [StarRing R]

/-- the program run by all ranks and the facts about the machine it runs on -/
structure Dist (P gn : ℕ) (rg : ℕ → ℕ) (A : ℕ → Csr R) (G : ℕ → ℕ → R) (sqrt fabs : R → R)
    (ps psh ls : (Fin gn → R) → Fin gn → R) (rdg : Fin gn → R) (loc : ℕ → AKit R R) : Prop where
  mat : DistMatrix P gn rg A G
  hsqrt : ∀ r, r < P → (loc r).sqrt = sqrt
  hloc : ∀ r, r < P → ∃ (a : ℕ → ℕ → R) (psl pshl lsl : (Fin (A r).n → R) → Fin (A r).n → R) (rdgl : Fin (A r).n → R),
    LocalOf (rg r) (A r).n ps psh ls rdg psl pshl lsl rdgl ∧ (loc r).Implements (mathKit a sqrt fabs psl pshl lsl rdgl)

variable {P gn : ℕ} {rg : ℕ → ℕ} {A : ℕ → Csr R} {G : ℕ → ℕ → R} {sqrt fabs : R → R}
  {ps psh ls : (Fin gn → R) → Fin gn → R} {rdg : Fin gn → R} {loc : ℕ → AKit R R}

theorem DistMatrix.lt (h : DistMatrix P gn rg A G) {r : ℕ} (hr : r < P) {i : ℕ} (hi : i < (A r).n) : rg r + i < gn := by
  have := h.part.mono' (a := r + 1) (b := P) (by omega) le_rfl
  rw [h.part.last] at this
  have := h.n r hr
  omega

theorem DistMatrix.part_get (h : DistMatrix P gn rg A G) {r : ℕ} (hr : r < P) (v : Fin gn → R) (i : Fin (A r).n) :
    localPart (rg r) (A r).n v i = v ⟨rg r + i, h.lt hr i.2⟩ := by
  unfold localPart; rw [dif_pos]

/-- sums over the parts of all ranks -/
theorem DistMatrix.sum_parts (h : DistMatrix P gn rg A G) (f : Fin gn → R) :
    ∑ r ∈ range P, ∑ i : Fin (A r).n, localPart (rg r) (A r).n f i = ∑ i, f i := by
  have := h.part.sum h.n (fun i => if hi : i < gn then f ⟨i, hi⟩ else 0)
  rw [sum_range (n := gn)] at this
  rw [show ∑ i, f i = ∑ i : Fin gn, if hi : i.1 < gn then f ⟨i, hi⟩ else 0 from
    sum_congr rfl fun i _ => by rw [dif_pos i.2], ← this]
  refine sum_congr rfl fun r _ => ?_
  rw [sum_range]
  rfl

/-- what rank by rank is summed by a reduction -/
def VRed.term (op : VRed) (g : MHeap R gn) (i : Fin gn) : R :=
  match op with
  | .dot x y => star (g x i) * g y i
  | .nhdot x y => g x i * g y i

theorem VRed.local_collective (D : Dist P gn rg A G sqrt fabs ps psh ls rdg loc) (op : VRed) {h : ℕ → Vecs R} {g : MHeap R gn}
    (hh : DistHeap P rg (fun r => (A r).n) h g) :
    Collective P (fun r => (Proc.lift (op.exec (loc r) (h r)) : Proc (Msg R) R)) fun r v =>
      v = ∑ i : Fin (A r).n, localPart (rg r) (A r).n (op.term g) i := by
  haveI : Nonempty R := ⟨0⟩
  refine Collective.of_ok fun r hr => ?_
  obtain ⟨a, psl, pshl, lsl, rdgl, -, hI⟩ := D.hloc r hr
  refine ⟨_, hI.red op (h r) (hh r hr).1, ?_⟩
  rw [(hh r hr).2]
  cases op with
  | dot x y =>
    show ∑ i, star (localPart (rg r) (A r).n (g x) i) * localPart (rg r) (A r).n (g y) i = _
    exact sum_congr rfl fun i _ => by simp only [D.mat.part_get hr]; rfl
  | nhdot x y =>
    show ∑ i, localPart (rg r) (A r).n (g x) i * localPart (rg r) (A r).n (g y) i = _
    exact sum_congr rfl fun i _ => by simp only [D.mat.part_get hr]; rfl

theorem VRed.dexec_collective (D : Dist P gn rg A G sqrt fabs ps psh ls rdg loc) {o : ℕ → Csr R × Arr ℕ}
    (junk : ℕ → ℕ → ℕ → R) (op : VRed) {h : ℕ → Vecs R} {g : MHeap R gn} (hh : DistHeap P rg (fun r => (A r).n) h g) :
    Collective P (fun r => op.dexec ⟨(o r).1, loc r, rg r, junk r⟩ P (h r)) fun _ c =>
      c = op.run (mathKit G sqrt fabs ps psh ls rdg) g := by
  unfold VRed.dexec
  refine Collective.bind (VRed.local_collective D op hh) fun v hv => ?_
  refine (mpiAllreduce_collective v).mono fun r c hr hc => ?_
  rw [hc, sum_congr rfl fun s hs => hv s (by simpa using hs), D.mat.sum_parts]
  cases op <;> rfl

theorem VNorm.dexec_collective (D : Dist P gn rg A G sqrt fabs ps psh ls rdg loc) {o : ℕ → Csr R × Arr ℕ}
    (junk : ℕ → ℕ → ℕ → R) (op : VNorm) {h : ℕ → Vecs R} {g : MHeap R gn} (hh : DistHeap P rg (fun r => (A r).n) h g) :
    Collective P (fun r => op.dexec ⟨(o r).1, loc r, rg r, junk r⟩ P (h r)) fun _ c =>
      c = op.run (mathKit G sqrt fabs ps psh ls rdg) g := by
  haveI : Nonempty R := ⟨0⟩
  cases op with
  | nrm2 x =>
    unfold VNorm.dexec
    refine Collective.bind (VRed.local_collective D (.dot x x) hh) fun v hv => ?_
    refine Collective.bind (mpiAllreduce_collective v) fun c hc => ?_
    refine Collective.ret fun r hr => ⟨_, rfl, ?_⟩
    rw [hc r hr, sum_congr rfl fun s hs => hv s (by simpa using hs), D.mat.sum_parts]
    dsimp only
    rw [D.hsqrt r hr]
    rfl
  | nrm1 x =>
    unfold VNorm.dexec
    refine Collective.bind (φ := fun r v => v = ∑ i : Fin (A r).n, localPart (rg r) (A r).n (fun i : Fin gn => fabs (g x i)) i)
      (Collective.of_ok fun r hr => ?_) fun v hv => ?_
    · obtain ⟨a, psl, pshl, lsl, rdgl, -, hI⟩ := D.hloc r hr
      refine ⟨_, hI.norm (.nrm1 x) (h r) (hh r hr).1, ?_⟩
      rw [(hh r hr).2]
      show ∑ i, fabs (localPart (rg r) (A r).n (g x) i) = _
      exact sum_congr rfl fun i _ => by simp only [D.mat.part_get hr]
    · refine (mpiAllreduce_collective v).mono fun r c hr hc => ?_
      rw [hc, sum_congr rfl fun s hs => hv s (by simpa using hs), D.mat.sum_parts]
      rfl

/-- the global vector as a function of the index -/
def globalFun {gn : ℕ} (v : Fin gn → R) (i : ℕ) : R := if h : i < gn then v ⟨i, h⟩ else 0

theorem DistHeap.distVec (hm : DistMatrix P gn rg A G) {h : ℕ → Vecs R} {g : MHeap R gn}
    (hh : DistHeap P rg (fun r => (A r).n) h g) (v : ℕ) : DistVec P rg (fun r => (h r v).value) (globalFun (g v)) := by
  intro r hr
  have := hm.n r hr
  obtain ⟨h1, h2⟩ := hh r hr
  dsimp only at h1 h2 ⊢
  refine ⟨by have := (h1 v).2; omega, fun i hi => ?_⟩
  have := congrFun (congrFun h2 v) ⟨i, by omega⟩
  exact this

omit [StarRing R] in
theorem matMul_globalFun (a : ℕ → ℕ → R) (v : Fin gn → R) (i : Fin gn) :
    ∑ j ∈ range gn, a i j * globalFun v j = matMul a v i := by
  rw [sum_range]
  exact sum_congr rfl fun j _ => by unfold globalFun; rw [dif_pos j.2]

theorem matMulH_globalFun (a : ℕ → ℕ → R) (v : Fin gn → R) (j : Fin gn) :
    ∑ i ∈ range gn, star (a i j) * globalFun v i = matMulH a v j := by
  rw [sum_range]
  exact sum_congr rfl fun j _ => by unfold globalFun; rw [dif_pos j.2]

omit [StarRing R] [NonUnitalNonAssocSemiring R] in
theorem setArr_good {n : ℕ} {h : Vecs R} (hg : h.Good n) {v : ℕ} {a : Arr R} (ha : n ≤ a.size) : (h.setArr v a).Good n := by
  intro w
  unfold Vecs.setArr
  split
  · exact ⟨(hg v).1, ha⟩
  · exact hg w

theorem VOp.dexec_collective (D : Dist P gn rg A G sqrt fabs ps psh ls rdg loc) {slack : ℕ → ℕ}
    (hsl : ∀ r, r < P → 1 ≤ slack r ∨ NeedsRemote rg A r) {o : ℕ → Csr R × Arr ℕ}
    (ho : ∀ r, r < P → IsLocalCsr gn (rg r) (rg (r + 1)) (A r) (o r).1 (o r).2)
    (hH : Halo P gn rg (haloList o)) (junk : ℕ → ℕ → ℕ → R) (op : VOp R)
    {h : ℕ → Vecs R} {ct : ℕ → CommTable R} {g : MHeap R gn}
    (hct : ∀ r, r < P → CommOk P rg (haloList o) r (A r).n (slack r) (ct r)) (hh : DistHeap P rg (fun r => (A r).n) h g) :
    Collective P (fun r => op.dexec ⟨(o r).1, loc r, rg r, junk r⟩ (h r) (ct r)) fun r q =>
      CommOk P rg (haloList o) r (A r).n (slack r) q.2 ∧ q.1.Good (A r).n ∧
        q.1.vecs (A r).n = fun v => localPart (rg r) (A r).n (op.run (mathKit G sqrt fabs ps psh ls rdg) g v) := by
  haveI : Nonempty (Vecs R × CommTable R) := ⟨(h 0, ct 0)⟩
  -- local calls
  have hl : ∀ op' : ℕ → VOp R, (∀ r, r < P → ∀ (a : ℕ → ℕ → R) (psl pshl lsl : (Fin (A r).n → R) → Fin (A r).n → R)
      (rdgl : Fin (A r).n → R), LocalOf (rg r) (A r).n ps psh ls rdg psl pshl lsl rdgl →
      (op' r).run (mathKit a sqrt fabs psl pshl lsl rdgl) (fun v => localPart (rg r) (A r).n (g v)) =
        fun v => localPart (rg r) (A r).n (op.run (mathKit G sqrt fabs ps psh ls rdg) g v)) →
      Collective P (fun r => (Proc.lift (do
        let h ← (op' r).exec (loc r) (h r)
        pure (h, ct r)) : Proc (Msg R) _)) fun r q =>
      CommOk P rg (haloList o) r (A r).n (slack r) q.2 ∧ q.1.Good (A r).n ∧
        q.1.vecs (A r).n = fun v => localPart (rg r) (A r).n (op.run (mathKit G sqrt fabs ps psh ls rdg) g v) := by
    intro op' hop
    refine Collective.of_ok fun r hr => ?_
    obtain ⟨a, psl, pshl, lsl, rdgl, hL, hI⟩ := D.hloc r hr
    rw [Ok_bind]
    refine (VOp.exec_refines hI (op' r) (hh r hr).1).mono ?_
    rintro h' ⟨g1, g2⟩
    rw [Ok_pure]
    refine ⟨hct r hr, g1, ?_⟩
    rw [g2, (hh r hr).2, hop r hr a psl pshl lsl rdgl hL]
  have up : ∀ (r y : ℕ) (f : Fin (A r).n → R) (F : Fin gn → R), f = localPart (rg r) (A r).n F →
      Function.update (fun v => localPart (rg r) (A r).n (g v)) y f = fun v => localPart (rg r) (A r).n (Function.update g y F v) := by
    rintro r y _ F rfl
    funext v
    by_cases hv : v = y
    · subst hv; simp
    · simp [Function.update_of_ne hv]
  cases op with
  | matvec x y hxy =>
    haveI : Nonempty (CommTable R × Arr R × Arr R) := ⟨ct 0, (h 0 x).value, (h 0 y).value⟩
    refine Collective.bind (mpiMatvec_collective D.mat hsl ho hH hct (fun r => junk r x) (DistHeap.distVec D.mat hh x)
      (y := fun r => (h r y).value) fun r hr => ((hh r hr).1 y).2) fun q hq => Collective.ret fun r hr => ?_
    obtain ⟨q1, q2, q3, q4, q5, q6⟩ := hq r hr
    refine ⟨(((h r).setArr x (q r).2.1).setArr y (q r).2.2, (q r).1), rfl, q1, setArr_good (n := (A r).n) (setArr_good (n := (A r).n) (hh r hr).1
      (by have := ((hh r hr).1 x).2; dsimp only at this; omega)) (by have := ((hh r hr).1 y).2; dsimp only at this; omega), ?_⟩
    funext v i
    have hv := congrFun (congrFun (hh r hr).2 v) i
    show (if v = y then (⟨(((h r).setArr x (q r).2.1) y).n, (q r).2.2⟩ : LVec R) else if v = x then ⟨(h r x).n, (q r).2.1⟩ else h r v).value.get i = _
    by_cases hvy : v = y
    · subst hvy
      simp only [if_pos rfl, if_true]
      rw [q5 i i.2, D.mat.part_get hr]
      show _ = Function.update g v (matMul G (g x)) v _
      rw [Function.update_self]
      exact matMul_globalFun G (g x) ⟨rg r + i, D.mat.lt hr i.2⟩
    · rw [if_neg hvy]
      show _ = localPart (rg r) (A r).n (Function.update g y _ v) i
      rw [Function.update_of_ne hvy, ← hv]
      by_cases hvx : v = x
      · subst hvx
        rw [if_pos rfl]
        exact q3 i i.2
      · rw [if_neg hvx]; rfl
  | matvech x y hxy =>
    haveI : Nonempty (CommTable R × Arr R) := ⟨ct 0, (h 0 x).value⟩
    refine Collective.bind (mpiMatvech_collective D.mat ho hH hct (fun r => junk r y) (DistHeap.distVec D.mat hh x)
      (y := fun r => (h r y).value)) fun q hq => Collective.ret fun r hr => ?_
    obtain ⟨q1, q2, q3⟩ := hq r hr
    refine ⟨((h r).setArr y (q r).2, (q r).1), rfl, q1, setArr_good (n := (A r).n) (hh r hr).1
      (by have := ((hh r hr).1 y).2; dsimp only at this; omega), ?_⟩
    funext v i
    have hv := congrFun (congrFun (hh r hr).2 v) i
    show (if v = y then (⟨(h r y).n, (q r).2⟩ : LVec R) else h r v).value.get i = _
    by_cases hvy : v = y
    · subst hvy
      simp only [if_true]
      rw [q3 i i.2, D.mat.part_get hr]
      show _ = Function.update g v (matMulH G (g x)) v _
      rw [Function.update_self]
      exact matMulH_globalFun G (g x) ⟨rg r + i, D.mat.lt hr i.2⟩
    · rw [if_neg hvy]
      show _ = localPart (rg r) (A r).n (Function.update g y _ v) i
      rw [Function.update_of_ne hvy, ← hv]
      rfl
  | fill f x =>
    exact hl (fun r => .fill (fun i => f (rg r + i)) x) fun r hr a psl pshl lsl rdgl hL =>
      up _ _ _ _ (by funext i; rw [D.mat.part_get hr])
  | psolve x y hxy => exact hl (fun r => .psolve x y hxy) fun r hr a psl pshl lsl rdgl hL => up _ _ _ _ (hL.ps _)
  | psolveh x y hxy => exact hl (fun r => .psolveh x y hxy) fun r hr a psl pshl lsl rdgl hL => up _ _ _ _ (hL.psh _)
  | lsolve x y hxy => exact hl (fun r => .lsolve x y hxy) fun r hr a psl pshl lsl rdgl hL => up _ _ _ _ (hL.ls _)
  | rdiag x => exact hl (fun r => .rdiag x) fun r hr a psl pshl lsl rdgl hL => up _ _ _ _ hL.rdg
  | _ =>
    exact hl (fun r => _) fun r hr a psl pshl lsl rdgl hL => up _ _ _ _ (by funext i; simp only [D.mat.part_get hr])

theorem Prog.dexec_collective (D : Dist P gn rg A G sqrt fabs ps psh ls rdg loc) {slack : ℕ → ℕ}
    (hsl : ∀ r, r < P → 1 ≤ slack r ∨ NeedsRemote rg A r) {o : ℕ → Csr R × Arr ℕ}
    (ho : ∀ r, r < P → IsLocalCsr gn (rg r) (rg (r + 1)) (A r) (o r).1 (o r).2)
    (hH : Halo P gn rg (haloList o)) (junk : ℕ → ℕ → ℕ → R) {α : Type} (p : Prog R R α) :
    ∀ {h : ℕ → Vecs R} {ct : ℕ → CommTable R} {hist : ℕ → Arr R} {g : MHeap R gn} {hist0 : Arr R} {a : α} {s' : MSt R R gn},
    (∀ r, r < P → CommOk P rg (haloList o) r (A r).n (slack r) (ct r)) →
    DistHeap P rg (fun r => (A r).n) h g → (∀ r, r < P → hist r = hist0) →
    p.run (mathKit G sqrt fabs ps psh ls rdg) ⟨g, hist0⟩ = some (a, s') →
    Collective P (fun r => p.dexec ⟨(o r).1, loc r, rg r, junk r⟩ P ⟨h r, hist r, ct r⟩) fun r q =>
      q.1 = a ∧ (q.2.h.Good (A r).n ∧ q.2.h.vecs (A r).n = fun v => localPart (rg r) (A r).n (s'.h v)) ∧ q.2.hist = s'.hist := by
  induction p with
  | ret a =>
    intro h ct hist g hist0 a' s' hct hh hhist hrun
    cases hrun
    haveI : Nonempty (α × DSt R) := ⟨(a, ⟨h 0, hist 0, ct 0⟩)⟩
    exact Collective.ret fun r hr => ⟨_, rfl, rfl, hh r hr, hhist r hr⟩
  | vop op k ih =>
    intro h ct hist g hist0 a s' hct hh hhist hrun
    unfold Prog.dexec
    refine Collective.bind (VOp.dexec_collective D hsl ho hH junk op hct hh) fun q hq => ?_
    exact ih (h := fun r => (q r).1) (ct := fun r => (q r).2) (fun r hr => (hq r hr).1) (fun r hr => (hq r hr).2) hhist hrun
  | red op k ih =>
    intro h ct hist g hist0 a s' hct hh hhist hrun
    haveI : Nonempty R := ⟨0⟩
    unfold Prog.dexec
    refine Collective.bind (φ := fun r c => c = op.run (mathKit G sqrt fabs ps psh ls rdg) g) ?_ fun c hc => ?_
    · exact VRed.dexec_collective D junk op hh
    · refine (ih (op.run (mathKit G sqrt fabs ps psh ls rdg) g) hct hh hhist hrun).congr fun r hr => ?_
      rw [hc r hr]
  | norm op k ih =>
    intro h ct hist g hist0 a s' hct hh hhist hrun
    haveI : Nonempty R := ⟨0⟩
    unfold Prog.dexec
    refine Collective.bind (φ := fun r c => c = op.run (mathKit G sqrt fabs ps psh ls rdg) g) ?_ fun c hc => ?_
    · exact VNorm.dexec_collective D junk op hh
    · refine (ih (op.run (mathKit G sqrt fabs ps psh ls rdg) g) hct hh hhist hrun).congr fun r hr => ?_
      rw [hc r hr]
  | hist i v k ih =>
    intro h ct hist g hist0 a s' hct hh hhist hrun
    unfold Prog.dexec
    unfold Prog.run at hrun
    obtain ⟨b, hb, hrun⟩ := Option.bind_eq_some_iff.1 hrun
    refine (ih hct hh (hist := fun _ => b) (fun _ _ => rfl) hrun).congr fun r hr => ?_
    rw [hhist r hr]
    dsimp only at hb
    rw [Proc.lift_bind hb]
  | undef =>
    intro h ct hist g hist0 a s' hct hh hhist hrun
    cases hrun

/-- **C34 (solvers).** Any solver program, any partition of the rows, any pattern, any schedule of the ranks and
messages: if the program run on the whole matrix and the whole vectors returns `a` in state `s'`, then on `P` ranks no
rank deadlocks or leaves its arrays, every rank returns `a`, has the same residual history, and holds its part of
every vector of `s'`. -/
theorem mpi_solver (D : Dist P gn rg A G sqrt fabs ps psh ls rdg loc) {ranges : ℕ → Arr ℕ} (hrg : KnowsRanges P rg ranges)
    (j1 j2 : ℕ → ℕ → ℕ) (J : ℕ → CommJunk R) (hsl : ∀ r, r < P → 1 ≤ (J r).slack ∨ NeedsRemote rg A r)
    (junk : ℕ → ℕ → ℕ → R) {α : Type} (p : Prog R R α) {h : ℕ → Vecs R} {g : MHeap R gn}
    (hh : DistHeap P rg (fun r => (A r).n) h g) {hist : Arr R} {a : α} {s' : MSt R R gn}
    (hrun : p.run (mathKit G sqrt fabs ps psh ls rdg) ⟨g, hist⟩ = some (a, s')) :
    AllSchedules P (fun r => p.dmain (j1 r) (j2 r) (J r) P (ranges r) gn (rg r) (rg (r + 1)) (A r) (loc r) (junk r) (h r) hist)
      fun r q => q.1 = a ∧ (∀ v, (q.2.h v).n = (A r).n ∧ (A r).n ≤ (q.2.h v).value.size ∧
        ∀ i (hi : rg r + i < rg (r + 1)) (hj : rg r + i < gn), (q.2.h v).value.get i = s'.h v ⟨rg r + i, hj⟩) ∧ q.2.hist = s'.hist := by
  refine (Collective.congr (mpiAssemble_bind D.mat hrg j1 j2 J fun o ct ho hH hct =>
    (Prog.dexec_collective D hsl ho hH junk p hct hh (hist := fun _ => hist) (fun _ _ => rfl) hrun).mono ?_) fun r hr => rfl).all
  rintro r q hr ⟨q1, ⟨q2, q3⟩, q4⟩
  refine ⟨q1, fun v => ⟨(q2 v).1, (q2 v).2, fun i hi hj => ?_⟩, q4⟩
  have hn := D.mat.n r hr
  have := congrFun (congrFun q3 v) ⟨i, by omega⟩
  rw [D.mat.part_get hr] at this
  exact this

end

/-! ### the Krylov solvers on several ranks -/

/-- stands in for the local product kernels of `loc`, which the distributed machine never calls -/
def zeroMv [Zero R] (_ y : Arr R) : Option (Arr R) := some ⟨y.size, fun _ => 0⟩

theorem zeroMv_isMatvec [NonUnitalNonAssocSemiring R] (n : ℕ) : IsMatvec n (fun _ _ => (0 : R)) zeroMv :=
  fun x y _ _ => ⟨_, rfl, rfl, fun i _ => by simp⟩
theorem zeroMv_isMatvech [NonUnitalNonAssocSemiring R] [StarRing R] (n : ℕ) : IsMatvech n (fun _ _ => (0 : R)) zeroMv :=
  fun x y _ _ => ⟨_, rfl, rfl, fun i _ => by simp⟩

/-- **C22–C25 and C34.** Each Krylov solver on `P` ranks (real build), with a preconditioner that works on the ranks'
own rows: for every partition, pattern, number of threads per rank, and schedule, all ranks return the same result,
which keeps the status contract, reports the residual of the `x` the ranks hold together, and after `LIS_SUCCESS` that
`x` meets the documented condition for the *global* matrix. -/
theorem mpi_krylov {P gn : ℕ} {rg : ℕ → ℕ} {A : ℕ → Csr ℝ} {G : ℕ → ℕ → ℝ} (hm : DistMatrix P gn rg A G)
    {ranges : ℕ → Arr ℕ} (hrg : KnowsRanges P rg ranges) (j1 j2 : ℕ → ℕ → ℕ) (J : ℕ → CommJunk ℝ)
    (hsl : ∀ r, r < P → 1 ≤ (J r).slack ∨ NeedsRemote rg A r) (mem : ℕ → ℕ → ℕ → ℝ)
    {ps psh : (Fin gn → ℝ) → Fin gn → ℝ} {aps apsh : ℕ → ℕ → ℕ → Vecs ℝ → Option (Vecs ℝ)}
    (hps : ∀ r, r < P → ∃ m, MapsVec (A r).n (aps r) m ∧ ∀ v, m (localPart (rg r) _ v) = localPart (rg r) _ (ps v))
    (hpsh : ∀ r, r < P → ∃ m, MapsVec (A r).n (apsh r) m ∧ ∀ v, m (localPart (rg r) _ v) = localPart (rg r) _ (psh v))
    {sqrt fabs : ℝ → ℝ} (h2 : ∀ r, 0 ≤ sqrt r) (h1 : ∀ r, 0 ≤ fabs r) {omp : ℕ → Option (OmpRun ℝ)}
    (ho : ∀ r, r < P → GoodRun (A r).n (omp r)) (k : Krylov) (o : Opts ℝ ℝ) (ht : 0 ≤ o.tol)
    (hw : o.conv = .nrm1B → o.tol ≤ o.tolW) (junk : ℝ) {h : ℕ → Vecs ℝ} {g : MHeap ℝ gn}
    (hh : DistHeap P rg (fun r => (A r).n) h g) {hist : Arr ℝ} (hsz : o.maxiter < hist.size) (hz : o.initZero → g hX = 0) :
    let K := krylovMath G sqrt fabs ps psh
    ∃ out s', Contract K o junk (k.brk K) ⟨g, hist⟩ s' out ∧ ReportsTrue K o junk ⟨g, hist⟩ s' out ∧
      (out.ret = .success → MeetsTol K o (g hB) (g hX) (s'.h hX)) ∧
      AllSchedules P (fun r => (k.prog junk o).dmain (j1 r) (j2 r) (J r) P (ranges r) gn (rg r) (rg (r + 1)) (A r)
          (krylovKit zeroMv zeroMv (aps r) (apsh r) sqrt fabs (omp r) (omp r)) (mem r) (h r) hist)
        fun r q => q.1 = out ∧ (∀ v, (q.2.h v).n = (A r).n ∧ (A r).n ≤ (q.2.h v).value.size ∧
          ∀ i (_ : rg r + i < rg (r + 1)) (hj : rg r + i < gn), (q.2.h v).value.get i = s'.h v ⟨rg r + i, hj⟩) ∧
          q.2.hist = s'.hist := by
  intro K
  have hlin : K.Linear := mathKit_linear G sqrt fabs ps psh id 0
  have h1' : ∀ v, 0 ≤ K.nrm1 v := fun v => by
    show (0 : ℝ) ≤ ∑ i, fabs (v i)
    exact Finset.sum_nonneg fun i _ => h1 _
  obtain ⟨⟨out, s'⟩, hr, c1⟩ := krylov_status k K o junk ⟨g, hist⟩ hsz
  obtain ⟨r', hr', c2⟩ := krylov_residual k K hlin o junk ⟨g, hist⟩ hsz hz
  obtain ⟨r'', hr'', c3⟩ := krylov_success_meetsTol k K hlin (fun v => h2 _) h1' o ht hw junk ⟨g, hist⟩ hsz hz
  rw [hr] at hr' hr''
  cases hr'; cases hr''
  refine ⟨out, s', c1, c2, c3, ?_⟩
  refine mpi_solver (sqrt := sqrt) (fabs := fabs) (ps := ps) (psh := psh) (ls := id) (rdg := 0) ⟨hm, fun r hr => rfl, fun r hr => ?_⟩
    hrg j1 j2 J hsl mem (k.prog junk o) hh hr
  obtain ⟨m1, e1, f1⟩ := hps r hr
  obtain ⟨m2, e2, f2⟩ := hpsh r hr
  refine ⟨_, m1, m2, id, 0, ⟨f1, f2, fun v => rfl, ?_⟩, krylovKit_implements (zeroMv_isMatvec _) (zeroMv_isMatvech _) e1 e2 sqrt fabs
    (ho r hr) (ho r hr)⟩
  funext i
  unfold localPart
  split <;> rfl

/-- no preconditioner: a local copy -/
theorem mpi_psolveNone {P gn : ℕ} {rg : ℕ → ℕ} {A : ℕ → Csr ℝ} : ∀ r, r < P →
    ∃ m, MapsVec (A r).n (psolveNone (R := ℝ)) m ∧ ∀ v : Fin gn → ℝ, m (localPart (rg r) _ v) = localPart (rg r) _ (id v) :=
  fun r _ => ⟨id, psolveNone_maps _, fun _ => rfl⟩

/-- the Jacobi preconditioner: every rank has the reciprocals of its diagonal elements -/
theorem mpi_psolveJacobi {P gn : ℕ} {rg : ℕ → ℕ} {A : ℕ → Csr ℝ} {d : ℕ → Arr ℝ} {dg : Fin gn → ℝ}
    (hd : ∀ r, r < P → (A r).n ≤ (d r).size ∧ ∀ i (hj : rg r + i < gn), i < (A r).n → (d r).get i = dg ⟨rg r + i, hj⟩) :
    ∀ r, r < P → ∃ m, MapsVec (A r).n (psolveJacobi id (A r).n (d r)) m ∧
      ∀ v : Fin gn → ℝ, m (localPart (rg r) _ v) = localPart (rg r) _ (fun i => v i * dg i) := by
  intro r hr
  refine ⟨_, psolveJacobi_maps id (hd r hr).1, fun v => ?_⟩
  funext i
  unfold localPart
  by_cases hj : rg r + i < gn
  · simp only [dif_pos hj, id, (hd r hr).2 i hj i.2]
  · simp only [dif_neg hj, zero_mul]

end Lis
