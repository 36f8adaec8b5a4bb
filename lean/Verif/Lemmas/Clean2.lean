import Verif.Lemmas.Clean
import Verif.Model.Krylov
import Verif.Model.Minres
import Verif.Model.Tfqmr
import Verif.Model.Stationary

/-! The solvers whose work vectors are set before they are read -/

namespace Lis
variable {R S : Type}

macro "cl_mem" : tactic => `(tactic| first
  | (simp only [Set.mem_insert_iff, Set.mem_singleton_iff, true_or, or_true]; done)
  | (simp [hB, hX]; done))

/-- one step of symbolic execution -/
macro "cl1" : tactic => `(tactic| first
  | with_reducible refine Clean_bind.2 ?_
  | with_reducible refine (Clean_vCopy _ _).2 ⟨by cl_mem, ?_⟩
  | with_reducible refine (Clean_vAxpy _ _ _).2 ⟨by cl_mem, by cl_mem, ?_⟩
  | with_reducible refine (Clean_vXpay _ _ _).2 ⟨by cl_mem, by cl_mem, ?_⟩
  | with_reducible refine (Clean_vAxpyz _ _ _ _).2 ⟨by cl_mem, by cl_mem, ?_⟩
  | with_reducible refine (Clean_vScale _ _).2 ⟨by cl_mem, ?_⟩
  | with_reducible refine (Clean_vSetAll _ _).2 ?_
  | with_reducible refine (Clean_vPmul _ _ _).2 ⟨by cl_mem, by cl_mem, ?_⟩
  | with_reducible refine (Clean_vConj _).2 ⟨by cl_mem, ?_⟩
  | with_reducible refine (Clean_mMatvec _ _ _).2 ⟨by cl_mem, ?_⟩
  | with_reducible refine (Clean_mMatvech _ _ _).2 ⟨by cl_mem, ?_⟩
  | with_reducible refine (Clean_mPsolve _ _ _).2 ⟨by cl_mem, ?_⟩
  | with_reducible refine (Clean_mPsolveh _ _ _).2 ⟨by cl_mem, ?_⟩
  | with_reducible refine (Clean_mLsolve _ _ _).2 ⟨by cl_mem, ?_⟩
  | with_reducible refine (Clean_mRdiag _).2 ?_
  | with_reducible refine (Clean_setHist _ _).2 ?_
  | with_reducible refine (Clean_vDot _ _).2 ⟨by cl_mem, by cl_mem, ?_⟩
  | with_reducible refine (Clean_vNhdot _ _).2 ⟨by cl_mem, by cl_mem, ?_⟩
  | with_reducible refine (Clean_vNrm2 _).2 ⟨by cl_mem, ?_⟩
  | with_reducible refine (Clean_vNrm1 _).2 ⟨by cl_mem, ?_⟩
  | with_reducible refine Clean_getResidual _ _ _ (by cl_mem) ?_
  | with_reducible refine Clean_checkResid _ _ _ _ (by cl_mem) ?_
  | with_reducible refine Clean_setShadow _ _ _ (by cl_mem) ?_
  | with_reducible refine Clean_initialResidual _ _ _ (by cl_mem) (by cl_mem) ?_
  | with_reducible refine Clean_ite.2 ⟨?_, ?_⟩
  | with_reducible refine Clean_pure.2 ?_
  | with_reducible intro _)

macro "cl" : tactic => `(tactic| repeat' cl1)

macro "cl_end" : tactic => `(tactic| (simp [Set.insert_subset_iff, hB, hX, OutOk]; done))

section
variable [Zero R] [One R] [Add R] [Neg R] [Mul R] [Div R] [Sub R] [Star R] [DecidableEq R] [RealOps S]

/-- an inner product reads its two arguments only -/
def DotLike (dot : ℕ → ℕ → Prog R S R) : Prop :=
  ∀ x y (V : Set ℕ) (post : R → Set ℕ → Prop), x ∈ V → y ∈ V → (∀ r, post r V) → (dot x y).Clean post V

theorem dotLike_dot : DotLike (vDot : ℕ → ℕ → Prog R S R) := fun x y _ _ h1 h2 h3 => (Clean_vDot x y).2 ⟨h1, h2, h3⟩
theorem dotLike_nhdot : DotLike (vNhdot : ℕ → ℕ → Prog R S R) := fun x y _ _ h1 h2 h3 => (Clean_vNhdot x y).2 ⟨h1, h2, h3⟩

theorem cg_clean {dot : ℕ → ℕ → Prog R S R} (hd : DotLike dot) (junk : S) (o : Opts R S) :
    (cgProg dot junk o).Clean (OutOk (Out S)) {hB, hX} := by
  unfold cgProg
  cl
  split
  · cl; cl_end
  · cl
    refine Clean_mainLoop (fun _ => {hB, hX, wk 2, wk 3}) (fun i => by simp [hX, hB]) (by cl_end) ?_
    intro j s hj
    unfold cgBody
    repeat' first | cl1 | refine hd _ _ _ _ (by cl_mem) (by cl_mem) ?_
    all_goals cl_end

theorem bicg_clean (junk : S) (o : Opts R S) : (lisBicg junk o).Clean (OutOk (Out S)) {hB, hX} := by
  unfold lisBicg
  cl
  split
  · cl; cl_end
  · cl
    refine Clean_mainLoop (fun _ => {hB, hX, wk 0, wk 1, wk 4, wk 5}) (fun i => by simp [hX, hB]) (by cl_end) ?_
    intro j s hj
    unfold bicgBody
    cl
    all_goals cl_end

theorem cr_clean {dot : ℕ → ℕ → Prog R S R} (hd : DotLike dot) (junk : S) (o : Opts R S) :
    (crProg dot junk o).Clean (OutOk (Out S)) {hB, hX} := by
  unfold crProg
  cl
  split
  · cl; cl_end
  · cl
    refine Clean_mainLoop (fun _ => {hB, hX, wk 0, wk 1, wk 2, wk 3}) (fun i => by simp [hX, hB]) (by cl_end) ?_
    intro j s hj
    unfold crBody
    repeat' first | cl1 | refine hd _ _ _ _ (by cl_mem) (by cl_mem) ?_
    all_goals cl_end

theorem bicr_clean (junk : S) (o : Opts R S) : (lisBicr junk o).Clean (OutOk (Out S)) {hB, hX} := by
  unfold lisBicr
  cl
  split
  · cl; cl_end
  · cl
    refine Clean_mainLoop (fun i => {hB, hX, wk 0, wk 1, wk 2, wk 4, wk 5, wk 6}) (fun i => by simp [hX, hB]) (by cl_end) ?_
    intro j s hj
    unfold bicrBody
    cl
    all_goals cl_end

theorem cgs_clean (junk : S) (o : Opts R S) : (lisCgs junk o).Clean (OutOk (Out S)) {hB, hX} := by
  unfold lisCgs
  cl
  split
  · cl; cl_end
  · cl
    refine Clean_mainLoop (fun i => {hB, hX, wk 0, wk 1, wk 2, wk 4}) (fun i => by simp [hX, hB]) (by cl_end) ?_
    intro j s hj
    unfold cgsBody
    cl
    all_goals cl_end

theorem crs_clean (junk : S) (o : Opts R S) : (lisCrs junk o).Clean (OutOk (Out S)) {hB, hX} := by
  unfold lisCrs
  cl
  split
  · cl; cl_end
  · cl
    refine Clean_mainLoop (fun i => {hB, hX, wk 0, wk 1, wk 2, wk 4}) (fun i => by simp [hX, hB]) (by cl_end) ?_
    intro j s hj
    unfold crsBody
    cl
    all_goals cl_end

theorem bicrstab_clean (junk : S) (o : Opts R S) : (lisBicrstab junk o).Clean (OutOk (Out S)) {hB, hX} := by
  unfold lisBicrstab
  cl
  split
  · cl; cl_end
  · cl
    refine Clean_mainLoop (fun i => {hB, hX, wk 0, wk 1, wk 5, wk 8}) (fun i => by simp [hX, hB]) (by cl_end) ?_
    intro j s hj
    unfold bicrstabBody
    cl
    all_goals cl_end

theorem bicgstab_clean (junk : S) (o : Opts R S) : (lisBicgstab junk o).Clean (OutOk (Out S)) {hB, hX} := by
  unfold lisBicgstab
  cl
  split
  · cl; cl_end
  · cl
    refine Clean_mainLoop (fun i => if i = 1 then {hB, hX, wk 0, wk 1, wk 3} else {hB, hX, wk 0, wk 1, wk 3, wk 4})
      (fun i => by split <;> simp [hX, hB]) (by simp [Set.insert_subset_iff, hB, hX]) ?_
    intro j s hj
    unfold bicgstabBody
    rw [if_neg (show ¬ j + 1 = 1 by omega)]
    by_cases h1 : j = 1
    · simp only [h1, if_true]
      cl
      all_goals cl_end
    · simp only [h1, if_false]
      cl
      all_goals cl_end

theorem minres_clean (F : GmFns R S) (o : Opts R S) : (lisMinres F o).Clean (OutOk (Out S)) {hB, hX} := by
  unfold lisMinres
  cl
  refine Clean_mainLoop (fun i => {hB, hX, wk 0, wk 1, wk 4, wk 5}) (fun i => by simp [hX, hB]) (by cl_end) ?_
  intro j s hj
  unfold minresBody
  cl
  all_goals cl_end

theorem tfqmrHalf_clean (F : TfqmrFns R S) (o : Opts R S) (t : Tols S) (iter m : ℕ) (alpha w wold : R) (g : TfqmrHalf R S)
    {V : Set ℕ} {post : TfqmrHalf R S × S → Set ℕ → Prop} (h2 : wk 2 ∈ V) (h7 : wk 7 ∈ V) (h4 : wk 4 ∈ V) (hx : hX ∈ V)
    (hp : ∀ r, post r (insert (wk 6) V)) : (tfqmrHalf F o t iter m alpha w wold g).Clean post V := by
  have e : insert hX (insert (wk 6) (insert (wk 4) V)) = insert (wk 6) V := by
    rw [Set.insert_eq_of_mem h4, Set.insert_eq_of_mem (Set.mem_insert_of_mem _ hx)]
  unfold tfqmrHalf
  simp only [Clean_bind, Clean_ite, Clean_vXpay, Clean_mPsolve, Clean_vAxpy, Clean_setHist, Clean_pure, e, h2, h7, h4, hx,
    Set.mem_insert_iff, true_or, or_true, true_and]
  exact ⟨fun _ => ⟨fun _ => hp _, fun _ => hp _⟩, fun _ => ⟨fun _ => hp _, fun _ => hp _⟩⟩

theorem tfqmr_clean (F : TfqmrFns R S) (junk : S) (o : Opts R S) : (lisTfqmr F junk o).Clean (OutOk (Out S)) {hB, hX} := by
  unfold lisTfqmr
  cl
  split
  · cl; cl_end
  · cl
    refine Clean_mainLoop (fun i => {hB, hX, wk 0, wk 1, wk 2, wk 3, wk 4, wk 8}) (fun i => by simp [hX, hB]) (by cl_end) ?_
    intro j s hj
    unfold tfqmrBody
    repeat' first | cl1 | refine tfqmrHalf_clean _ _ _ _ _ _ _ _ _ (by cl_mem) (by cl_mem) (by cl_mem) (by cl_mem) ?_ | unfold tfqmrNext
    all_goals cl_end

end
end Lis
