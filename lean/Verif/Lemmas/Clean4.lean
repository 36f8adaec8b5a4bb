import Verif.Lemmas.Clean3
import Verif.Model.Bicgstabl
import Verif.Model.Idrs
import Mathlib.Data.List.Nodup

/-! Orthomin, the stationary methods, BiCGSTAB(l), IDR(s) -/

namespace Lis
variable {R S : Type} {α β : Type}

theorem Clean_forIterP {σ : Type} {body : ℕ → σ → Prog R S (σ ⊕ Out S)} {post : σ ⊕ Out S → Set ℕ → Prop} (Inv : ℕ → Set ℕ)
    (P : σ → Prop) (hpost : ∀ r W W', post r W → W ⊆ W' → post r W') :
    ∀ (k i : ℕ) (s : σ) (V : Set ℕ), Inv i ⊆ V → P s →
    (∀ j s, i ≤ j → j < i + k → P s → (body j s).Clean (fun r W => match r with
      | .inl s' => Inv (j + 1) ⊆ W ∧ P s'
      | .inr o => post (.inr o) W) (Inv j)) →
    (∀ s, P s → post (.inl s) (Inv (i + k))) → (forIter body k i s).Clean post V := by
  intro k
  induction k with
  | zero => intro i s V h hs _ he; exact hpost _ _ _ (he s hs) h
  | succ k ih =>
    intro i s V h hs hb he
    unfold forIter
    rw [Clean_bind]
    refine (hb i s (le_refl _) (by omega) hs).mono h ?_
    intro r W W' hr hW
    cases r with
    | inl s' =>
      refine ih (i + 1) s' W' (hr.1.trans hW) hr.2 (fun j s h1 h2 => hb j s (by omega) (by omega)) ?_
      intro s
      rw [show i + 1 + k = i + (k + 1) by omega]
      exact he s
    | inr o => exact hpost _ _ _ hr hW

section
variable [Zero R] [One R] [Add R] [Neg R] [Mul R] [Div R] [Sub R] [Star R] [DecidableEq R] [RealOps S]

/-! ### Orthomin -/

/-- the vectors known before iteration `i` -/
def omSet (m i : ℕ) : Set ℕ := {hB, hX, wk 0, wk 1} ∪
  {u | ∃ j, j < i - 1 ∧ (u = omP (j % (m + 1)) ∨ u = omAp m (j % (m + 1)) ∨ u = omApt m (j % (m + 1)))}

theorem omShift_scalar : ∀ k (ds : Arr (Option R)), (orthominShift k ds : Prog R S _).Scalar := by
  intro k
  induction k with
  | zero => intro ds V post h; exact h _
  | succ k ih =>
    intro ds V post h
    unfold orthominShift
    cs
    exact ih _ _ _ h

theorem orthominOrth_clean (m i : ℕ) (hi : 1 ≤ i) (ds : Arr (Option R)) {V : Set ℕ} (hV : omSet m (i + 1) ⊆ V) :
    (orthominOrth m ((i - 1) % (m + 1)) (min m (i - 1)) ds : Prog R S Unit).Clean (fun _ W => V ⊆ W) V := by
  have hm : ∀ j, j < i → omP (j % (m + 1)) ∈ V ∧ omAp m (j % (m + 1)) ∈ V ∧ omApt m (j % (m + 1)) ∈ V := fun j hj =>
    ⟨hV (Or.inr ⟨j, by omega, Or.inl rfl⟩), hV (Or.inr ⟨j, by omega, Or.inr (Or.inl rfl)⟩),
      hV (Or.inr ⟨j, by omega, Or.inr (Or.inr rfl)⟩)⟩
  obtain ⟨p1, p2, p3⟩ := hm (i - 1) (by omega)
  unfold orthominOrth
  refine Clean_pfor (fun _ => V) (fun _ _ _ h h' => h.trans h') _ _ _ _ (Set.Subset.refl _) ?_ fun s => Set.Subset.refl _
  intro l s h1 h2
  have h3 : l ≤ m ∧ l ≤ i - 1 := by omega
  have e : ((i - 1) % (m + 1) + m + 1 - l) % (m + 1) = (i - 1 - l) % (m + 1) := by
    have h4 : (i - 1) % (m + 1) + m + 1 - l = (i - 1) % (m + 1) + (m + 1 - l) := by omega
    have h5 : (i - 1 - l) + (m + 1) = (i - 1) + (m + 1 - l) := by omega
    rw [h4, Nat.mod_add_mod, ← h5, Nat.add_mod_right]
  obtain ⟨q1, q2, q3⟩ := hm (i - 1 - l) (by omega)
  simp only [e, Clean_bind, Clean_vDot]
  refine ⟨p3, q3, fun r => Clean_aUse _ _ fun d => ?_⟩
  simp only [Clean_vAxpy, Set.insert_eq_of_mem p1, Set.insert_eq_of_mem p2, Set.insert_eq_of_mem p3]
  exact ⟨q1, p1, q2, p2, q3, p3, Set.Subset.refl _⟩

theorem orthomin_clean (m : ℕ) (junk : S) (o : Opts R S) : (lisOrthomin m junk o).Clean (OutOk (Out S)) {hB, hX} := by
  unfold lisOrthomin
  cl
  split
  · cl; cl_end
  · cl
    refine Clean_mainLoop (omSet m) (fun i => by simp [omSet, hB, hX]) ?_ ?_
    · rintro v (hv | ⟨j, hj, -⟩)
      · rcases hv with rfl | rfl | rfl | rfl <;> simp [hB, hX]
      · omega
    · intro i s hi
      unfold orthominBody orthominStep
      have hs : insert (omApt m ((i - 1) % (m + 1))) (insert (omAp m ((i - 1) % (m + 1)))
          (insert (omP ((i - 1) % (m + 1))) (omSet m i))) = omSet m (i + 1) := by
        ext u
        simp only [omSet, Set.mem_insert_iff, Set.mem_union, Set.mem_setOf_eq, Set.mem_singleton_iff]
        constructor
        · rintro (h | h | h | h | ⟨j, hj, h⟩)
          · exact Or.inr ⟨i - 1, by omega, Or.inr (Or.inr h)⟩
          · exact Or.inr ⟨i - 1, by omega, Or.inr (Or.inl h)⟩
          · exact Or.inr ⟨i - 1, by omega, Or.inl h⟩
          · exact Or.inl h
          · exact Or.inr ⟨j, by omega, h⟩
        · rintro (h | ⟨j, hj, h⟩)
          · exact Or.inr (Or.inr (Or.inr (Or.inl h)))
          · rcases Nat.lt_or_ge j (i - 1) with hj' | hj'
            · exact Or.inr (Or.inr (Or.inr (Or.inr ⟨j, hj', h⟩)))
            · rw [show j = i - 1 by omega] at h
              rcases h with h | h | h
              · exact Or.inr (Or.inr (Or.inl h))
              · exact Or.inr (Or.inl h)
              · exact Or.inl h
      have w0 : wk 0 ∈ omSet m i ∧ wk 1 ∈ omSet m i := ⟨Or.inl (by simp), Or.inl (by simp)⟩
      simp only [Clean_bind, Clean_vCopy, Clean_mMatvec, Clean_mPsolve, hs]
      refine ⟨w0.2, Set.mem_insert _ _, Set.mem_insert _ _, ?_⟩
      refine (orthominOrth_clean m i hi s.1 (Set.Subset.refl _)).mono' ?_
      intro _ W hW
      refine omShift_scalar _ _ _ _ fun ds => ?_
      have m0 : hB ∈ W ∧ hX ∈ W ∧ wk 0 ∈ W ∧ wk 1 ∈ W :=
        ⟨hW (Or.inl (by simp)), hW (Or.inl (by simp)), hW (Or.inl (by simp)), hW (Or.inl (by simp))⟩
      have m1 : omP ((i - 1) % (m + 1)) ∈ W ∧ omAp m ((i - 1) % (m + 1)) ∈ W ∧ omApt m ((i - 1) % (m + 1)) ∈ W := by
        rw [← hs] at hW
        exact ⟨hW (by simp), hW (by simp), hW (by simp)⟩
      rw [Clean_vDot]
      refine ⟨m1.2.2, m1.2.2, fun d => Clean_aWr _ _ _ fun ds => ?_⟩
      rw [Clean_ite]
      refine ⟨fun _ => ⟨m0.2.1, m0.1⟩, fun _ => ?_⟩
      rw [Clean_bind]
      refine Clean_aWr _ _ _ fun ds => ?_
      simp only [Clean_bind, Clean_vDot, Clean_vAxpy, Set.insert_eq_of_mem m0.2.1, Set.insert_eq_of_mem m0.2.2.1,
        Set.insert_eq_of_mem m0.2.2.2]
      refine ⟨m0.2.2.2, m1.2.2, fun a => ⟨m1.1, m0.2.1, m1.2.1, m0.2.2.1, m1.2.2, m0.2.2.2, ?_⟩⟩
      refine Clean_checkResid _ _ _ _ m0.2.2.1 fun n2 => ?_
      simp only [Clean_ite, Clean_pure]
      exact ⟨fun _ => ⟨m0.2.1, m0.1⟩, fun _ => hW⟩

/-! ### stationary methods -/

omit [Zero R] [Div R] [Sub R] [Star R] [DecidableEq R] in
theorem stat_clean (pre upd : Prog R S Unit) (c : ℕ) (J : Set ℕ) (hJ : ({hB, hX} : Set ℕ) ⊆ J)
    (hpre : pre.Clean (fun _ W => J ⊆ W) {hB, hX})
    (hupd : upd.Clean (fun _ W => insert c J ⊆ W) (insert (wk 0) (insert (wk 1) (insert (wk 2) J)))) (junk : S) (o : Opts R S) :
    (statProg pre upd c junk o).Clean (OutOk (Out S)) {hB, hX} := by
  have jB : hB ∈ J := hJ (by simp)
  have jX : hX ∈ J := hJ (by simp)
  unfold statProg
  rw [Clean_bind, Clean_vNrm2]
  refine ⟨by simp, fun bn => ?_⟩
  rw [Clean_bind]
  refine hpre.mono' ?_
  intro _ W hW
  rw [Clean_bind]
  refine Clean_forIter (fun _ => J) ?_ _ _ _ _ hW ?_ ?_
  · rintro (r | r) W W' h1 hW
    · exact Prog.Clean.mono h1 hW fun _ _ _ h h' => ⟨h' h.1, h' h.2⟩
    · exact ⟨hW h1.1, hW h1.2⟩
  · intro j s _ _
    unfold statBody
    simp only [Clean_bind, Clean_mPsolve, Clean_mMatvec, Clean_vAxpyz, Clean_vNrm2]
    refine ⟨jX, by simp, by simp, by simp [jB], by simp, fun r => ?_⟩
    refine hupd.mono' ?_
    intro _ W hW
    have hX' : hX ∈ W := hW (by simp [jX])
    have hB' : hB ∈ W := hW (by simp [jB])
    have hc : c ∈ W := hW (by simp)
    simp only [Clean_vAxpy, Clean_ite, Clean_setHist, Clean_bind, Clean_mPsolve, Clean_vCopy, Clean_pure,
      Set.insert_eq_of_mem hX', hX', hc, true_and]
    have e1 : J ⊆ W := (Set.subset_insert _ _).trans hW
    have e2 : hX ∈ insert hX (insert (wk 2) W) ∧ hB ∈ insert hX (insert (wk 2) W) := ⟨by simp, by simp [hB']⟩
    refine ⟨fun _ => ⟨fun _ => ⟨by simp, e2⟩, fun _ => e1⟩, fun _ => ⟨fun _ => ⟨by simp, e2⟩, fun _ => e1⟩⟩
  · intro s
    simp only [Clean_bind, Clean_mPsolve, Clean_vCopy, Clean_pure, OutOk]
    exact ⟨jX, by simp, by simp, by simp [jB]⟩

omit [Zero R] [Div R] [Sub R] [Star R] [DecidableEq R] in
theorem jacobi_clean (junk : S) (o : Opts R S) : (lisJacobi junk o : Prog R S _).Clean (OutOk (Out S)) {hB, hX} := by
  unfold lisJacobi
  refine stat_clean _ _ _ {hB, hX, wk 3} (by simp [Set.insert_subset_iff]) ?_ ?_ junk o
  · rw [Clean_mRdiag]; simp [Set.insert_subset_iff]
  · rw [Clean_vPmul]; simp [Set.insert_subset_iff]

omit [Zero R] [Div R] [Sub R] [Star R] [DecidableEq R] in
theorem gs_clean (junk : S) (o : Opts R S) : (lisGs junk o : Prog R S _).Clean (OutOk (Out S)) {hB, hX} := by
  unfold lisGs
  refine stat_clean _ _ _ {hB, hX} (Set.Subset.refl _) ?_ ?_ junk o
  · rw [Clean_pure]
  · rw [Clean_mLsolve]; simp [Set.insert_subset_iff]

/-! ### BiCGSTAB(l) -/

def blSet (l j : ℕ) : Set ℕ := {hB, hX, wk 0, wk 1} ∪ {u | ∃ i, i ≤ j ∧ (u = blR i ∨ u = blU l i)}

theorem blSet_r {l j i : ℕ} (h : i ≤ j) : blR i ∈ blSet l j := Or.inr ⟨i, h, Or.inl rfl⟩
theorem blSet_u {l j i : ℕ} (h : i ≤ j) : blU l i ∈ blSet l j := Or.inr ⟨i, h, Or.inr rfl⟩
theorem blSet_c {l j v : ℕ} (h : v = hB ∨ v = hX ∨ v = wk 0 ∨ v = wk 1) : v ∈ blSet l j := Or.inl h

theorem blSet_succ (l j : ℕ) : blSet l (j + 1) ⊆ insert (blR (j + 1)) (insert (blU l (j + 1)) (blSet l j)) := by
  rintro u (h | ⟨i, hi, h⟩)
  · exact Or.inr (Or.inr (Or.inl h))
  · rcases Nat.lt_or_ge j i with h' | h'
    · rw [show i = j + 1 by omega] at h
      rcases h with rfl | rfl
      · exact Or.inl rfl
      · exact Or.inr (Or.inl rfl)
    · exact Or.inr (Or.inr (Or.inr ⟨i, h', h⟩))

theorem blSet_mono (l : ℕ) {i j : ℕ} (h : i ≤ j) : blSet l i ⊆ blSet l j := by
  rintro u (h' | ⟨k, hk, h'⟩)
  · exact Or.inl h'
  · exact Or.inr ⟨k, by omega, h'⟩

theorem blFinish_clean {V : Set ℕ} {post : Unit → Set ℕ → Prop} (hx : hX ∈ V) (h1 : wk 1 ∈ V)
    (hp : post () (insert (wk 3) V)) : (blFinish : Prog R S Unit).Clean post V := by
  unfold blFinish
  simp only [Clean_bind, Clean_mPsolve, Clean_vCopy, Clean_vAxpy, Set.mem_insert_iff, true_or, or_true, true_and, h1, hx,
    Set.insert_eq_of_mem (Set.mem_insert_of_mem (wk 3) hx)]
  exact hp

theorem blBicg_clean (l : ℕ) (o : Opts R S) (t : Tols S) (iter j : ℕ) (st : BlSt R × S) :
    (blBicg l o t iter j st).Clean (fun r W => match r with
      | .inl _ => blSet l (j + 1) ⊆ W
      | .inr _ => hX ∈ W ∧ hB ∈ W) (blSet l j) := by
  have mX : ∀ j, hX ∈ blSet l j := fun j => blSet_c (by simp)
  have mB : ∀ j, hB ∈ blSet l j := fun j => blSet_c (by simp)
  have m0 : ∀ j, wk 0 ∈ blSet l j := fun j => blSet_c (by simp)
  have m1 : ∀ j, wk 1 ∈ blSet l j := fun j => blSet_c (by simp)
  unfold blBicg
  rw [Clean_bind, Clean_vDot]
  refine ⟨m0 j, blSet_r (le_refl _), fun rho1 => ?_⟩
  rw [Clean_ite]
  refine ⟨fun _ => ?_, fun _ => ?_⟩
  · rw [Clean_bind]
    exact blFinish_clean (mX _) (m1 _) ⟨by simp [mX], by simp [mB]⟩
  refine Clean_cut (I := blSet l j) (J := fun _ => blSet l j) ?_ (Set.Subset.refl _)
    (Clean_pfor (fun _ => blSet l j) (fun _ _ _ h h' => h.trans h') _ _ _ _ (Set.Subset.refl _) ?_ fun s => Set.Subset.refl _) ?_
  · rintro (r | r) W W' h hW
    · exact Set.Subset.trans h hW
    · exact ⟨hW h.1, hW h.2⟩
  · intro i _ _ hi
    rw [Clean_vXpay]
    exact ⟨blSet_r (by omega), blSet_u (by omega), Set.subset_insert _ _⟩
  intro _
  obtain ⟨V, hV⟩ : ∃ V, V = insert (blU l (j + 1)) (insert (wk 3) (blSet l j)) := ⟨_, rfl⟩
  have hs : blSet l j ⊆ V := by rw [hV]; exact (Set.subset_insert _ _).trans (Set.subset_insert _ _)
  have hu : blU l (j + 1) ∈ V := by rw [hV]; exact Set.mem_insert _ _
  simp only [Clean_bind, Clean_mPsolve, Clean_mMatvec, Clean_vDot, ← hV]
  refine ⟨blSet_u (le_refl _), Set.mem_insert _ _, hs (m0 _), hu, fun nu => ?_⟩
  rw [Clean_ite]
  refine ⟨fun _ => ?_, fun _ => ?_⟩
  · rw [Clean_bind]
    exact blFinish_clean (hs (mX _)) (hs (m1 _)) ⟨Set.mem_insert_of_mem _ (hs (mX _)), Set.mem_insert_of_mem _ (hs (mB _))⟩
  rw [Clean_bind, Clean_vAxpy, Set.insert_eq_of_mem (hs (mX _))]
  refine ⟨hs (blSet_u (Nat.zero_le _)), hs (mX _), ?_⟩
  refine Clean_cut (I := V) (J := fun _ => V) ?_ (Set.Subset.refl _)
    (Clean_pfor (fun _ => V) (fun _ _ _ h h' => h.trans h') _ _ _ _ (Set.Subset.refl _) ?_ fun s => Set.Subset.refl _) ?_
  · rintro (r | r) W W' h hW
    · exact Set.Subset.trans h hW
    · exact ⟨hW h.1, hW h.2⟩
  · intro i _ _ hi
    rw [Clean_vAxpy]
    refine ⟨?_, hs (blSet_r (by omega)), Set.subset_insert _ _⟩
    rcases Nat.lt_or_ge i j with h | h
    · exact hs (blSet_u (by omega))
    · rw [show i = j by omega]; exact hu
  intro _
  rw [Clean_bind]
  refine Clean_getResidual _ _ _ (hs (blSet_r (Nat.zero_le _))) fun nrm2 => ?_
  have fin : ∀ post : Unit → Set ℕ → Prop, post () (insert (wk 3) V) → (blFinish : Prog R S Unit).Clean post V :=
    fun post h => blFinish_clean (hs (mX _)) (hs (m1 _)) h
  have e : hX ∈ insert (wk 3) V ∧ hB ∈ insert (wk 3) V :=
    ⟨Set.mem_insert_of_mem _ (hs (mX _)), Set.mem_insert_of_mem _ (hs (mB _))⟩
  have e3 : blSet l (j + 1) ⊆ insert (blR (j + 1)) (insert (wk 3) V) := by
    refine (blSet_succ l j).trans (Set.insert_subset_insert ?_)
    exact (Set.insert_subset_iff.2 ⟨hu, hs⟩).trans (Set.subset_insert _ _)
  have key : (do
      if nrm2 ≤ t.tol then do
        if o.mem = true then setHist iter nrm2
        blFinish
        pure (.inr ⟨.success, iter, nrm2⟩)
      else do
        mPsolve (blR j) (wk 3) (by simp only [blR, wk]; omega)
        mMatvec (wk 3) (blR (j + 1)) (by simp only [blR, wk]; omega)
        pure (.inl (⟨rho1 / nu, rho1⟩, nrm2)) : Prog R S ((BlSt R × S) ⊕ Out S)).Clean (fun r W => match r with
      | .inl _ => blSet l (j + 1) ⊆ W
      | .inr _ => hX ∈ W ∧ hB ∈ W) V := by
    simp only [Clean_ite, Clean_bind, Clean_setHist, Clean_pure, Clean_mPsolve, Clean_mMatvec]
    exact ⟨fun _ => ⟨fun _ => fin _ e, fun _ => fin _ e⟩, fun _ => ⟨hs (blSet_r (le_refl _)), Set.mem_insert _ _, e3⟩⟩
  rw [Clean_ite]
  exact ⟨fun _ => Clean_bind.2 ((Clean_setHist _ _).2 key), fun _ => key⟩

theorem blSum_scalar (l j sh : ℕ) (a : Arr (Option R)) (k lo : ℕ) : (blSum l j sh a k lo : Prog R S R).Scalar := by
  unfold blSum
  refine Scalar_pfor (fun i s V post h => ?_) _ _ _
  cs
  exact h _

theorem blBack_scalar (l : ℕ) : ∀ k (a : Arr (Option R)), (blBack l k a : Prog R S _).Scalar := by
  intro k
  induction k with
  | zero => intro a V post h; exact h _
  | succ k ih =>
    intro a V post h
    unfold blBack
    rw [Clean_bind]
    refine blSum_scalar _ _ _ _ _ _ _ _ fun nu => ?_
    cs
    exact ih _ _ _ h

theorem blOrth_clean (l j : ℕ) (hj : j ≤ l) (a : Arr (Option R)) :
    (blOrth l j a : Prog R S _).Clean (fun _ W => blSet l l ⊆ W) (blSet l l) := by
  unfold blOrth
  refine Clean_cut (I := blSet l l) (J := fun _ => blSet l l) (fun _ _ _ h h' => h.trans h') (Set.Subset.refl _)
    (Clean_pfor (fun _ => blSet l l) (fun _ _ _ h h' => h.trans h') _ _ _ _ (Set.Subset.refl _) ?_ fun s => Set.Subset.refl _) ?_
  · intro i a h1 h2
    rw [Clean_bind, Clean_vDot]
    refine ⟨blSet_r hj, blSet_r (by omega), fun nu => ?_⟩
    rw [Clean_bind]
    refine Clean_aUse _ _ fun si => ?_
    rw [Clean_bind]
    refine Clean_aWr _ _ _ fun a => ?_
    rw [Clean_bind, Clean_vAxpy]
    exact ⟨blSet_r (by omega), blSet_r hj, Set.subset_insert _ _⟩
  · intro a
    rw [Clean_bind, Clean_vDot]
    refine ⟨blSet_r hj, blSet_r hj, fun sj => ?_⟩
    rw [Clean_bind]
    refine Clean_aWr _ _ _ fun a => ?_
    rw [Clean_bind, Clean_vDot]
    refine ⟨blSet_r (Nat.zero_le _), blSet_r hj, fun nu => ?_⟩
    rw [Clean_bind]
    refine Clean_aUse _ _ fun s => ?_
    exact Clean_aWr _ _ _ fun a => Set.Subset.refl _

theorem blScalars_clean (l : ℕ) (a : Arr (Option R)) :
    (blScalars l a : Prog R S _).Clean (fun _ W => blSet l l ⊆ W) (blSet l l) := by
  unfold blScalars
  refine Clean_cut (I := blSet l l) (J := fun _ => blSet l l) (fun _ _ _ h h' => h.trans h') (Set.Subset.refl _)
    (Clean_pfor (fun _ => blSet l l) (fun _ _ _ h h' => h.trans h') _ _ _ _ (Set.Subset.refl _)
      (fun i a _ h => blOrth_clean l i (by omega) a) fun s => Set.Subset.refl _) ?_
  intro a
  rw [Clean_bind]
  refine Clean_aUse _ _ fun g => ?_
  rw [Clean_bind]
  refine Clean_aWr _ _ _ fun a => ?_
  rw [Clean_bind]
  refine Clean_aUse _ _ fun om => ?_
  rw [Clean_bind]
  refine blBack_scalar _ _ _ _ _ fun a => ?_
  rw [Clean_bind]
  refine Scalar_pfor (fun j s V post h => ?_) _ _ _ _ _ fun a => Set.Subset.refl _
  rw [Clean_bind]
  refine blSum_scalar _ _ _ _ _ _ _ _ fun nu => ?_
  cs
  exact h _

theorem blUpdate_clean (l : ℕ) (a : Arr (Option R)) :
    (blUpdate l a : Prog R S _).Clean (fun _ W => blSet l l ⊆ W) (blSet l l) := by
  have mX : hX ∈ blSet l l := blSet_c (by simp)
  have iX : insert hX (blSet l l) = blSet l l := Set.insert_eq_of_mem mX
  have ir : insert (blR 0) (blSet l l) = blSet l l := Set.insert_eq_of_mem (blSet_r (Nat.zero_le _))
  have iu : insert (blU l 0) (blSet l l) = blSet l l := Set.insert_eq_of_mem (blSet_u (Nat.zero_le _))
  unfold blUpdate
  rw [Clean_bind]
  refine Clean_aUse _ _ fun g => ?_
  rw [Clean_bind, Clean_vAxpy, iX]
  refine ⟨blSet_r (Nat.zero_le _), mX, ?_⟩
  rw [Clean_bind]
  refine Clean_aUse _ _ fun g => ?_
  rw [Clean_bind, Clean_vAxpy, ir]
  refine ⟨blSet_r (le_refl _), blSet_r (Nat.zero_le _), ?_⟩
  rw [Clean_bind]
  refine Clean_aUse _ _ fun g => ?_
  rw [Clean_bind, Clean_vAxpy, iu]
  refine ⟨blSet_u (le_refl _), blSet_u (Nat.zero_le _), ?_⟩
  refine Clean_pfor (fun _ => blSet l l) (fun _ _ _ h h' => h.trans h') _ _ _ _ (Set.Subset.refl _) ?_ fun s => Set.Subset.refl _
  intro j _ h1 h2
  rw [Clean_bind]
  refine Clean_aUse _ _ fun g => ?_
  rw [Clean_bind, Clean_vAxpy, iu]
  refine ⟨blSet_u (by omega), blSet_u (Nat.zero_le _), ?_⟩
  rw [Clean_bind]
  refine Clean_aUse _ _ fun g => ?_
  rw [Clean_bind, Clean_vAxpy, iX]
  refine ⟨blSet_r (by omega), mX, ?_⟩
  rw [Clean_bind]
  refine Clean_aUse _ _ fun g => ?_
  rw [Clean_vAxpy, ir]
  exact ⟨blSet_r (by omega), blSet_r (Nat.zero_le _), Set.Subset.refl _⟩

theorem bicgstabl_clean (l : ℕ) (junk : S) (o : Opts R S) : (lisBicgstabl l junk o).Clean (OutOk (Out S)) {hB, hX} := by
  have mX : ∀ j, hX ∈ blSet l j := fun j => blSet_c (by simp)
  have mB : ∀ j, hB ∈ blSet l j := fun j => blSet_c (by simp)
  have m1 : ∀ j, wk 1 ∈ blSet l j := fun j => blSet_c (by simp)
  unfold lisBicgstabl
  cl
  split
  · cl; cl_end
  · cl
    refine Clean_forIter (fun _ => blSet l 0) ?_ _ _ _ _ ?_ ?_ ?_
    · rintro (r | r) W W' ⟨h1, h2⟩ hW
      · exact ⟨hW h1, hW h2⟩
      · exact ⟨hW h1, hW h2⟩
    · rintro u (h | ⟨i, hi, h⟩)
      · rcases h with rfl | rfl | rfl | rfl <;> simp [hB, hX]
      · rw [show i = 0 by omega] at h
        rcases h with rfl | rfl <;> simp
    · intro k s _ _
      unfold blBody
      refine Clean_cut (I := blSet l 0) (J := fun r => match r with
        | .inl _ => blSet l l
        | .inr _ => {hX, hB}) ?_ (Set.Subset.refl _)
        (Clean_forIter (blSet l) ?_ _ _ _ _ (Set.Subset.refl _) (fun j s _ _ => (blBicg_clean l o _ _ j s).mono' ?_) ?_) ?_
      · rintro (r | r) W W' h hW
        · exact Set.Subset.trans h hW
        · exact ⟨hW h.1, hW h.2⟩
      · rintro (r | r) W W' h hW
        · exact Set.Subset.trans h hW
        · exact Set.Subset.trans h hW
      · rintro (r | r) W h
        · exact h
        · simp only [Set.insert_subset_iff, Set.singleton_subset_iff]; exact h
      · intro s
        rw [Nat.zero_add]
      · rintro (⟨g, x⟩ | out)
        · simp only
          rw [Clean_bind]
          refine (blScalars_clean l _).mono' ?_
          intro ⟨a, om⟩ W hW
          refine Clean_cut (J := fun _ => blSet l l) ?_ hW (blUpdate_clean l a) fun _ => ?_
          · rintro (r | r) W W' h hW
            · exact Set.Subset.trans h hW
            · exact ⟨hW h.1, hW h.2⟩
          rw [Clean_bind]
          refine Clean_checkResid _ _ _ _ (blSet_r (Nat.zero_le _)) fun nrm2 => ?_
          rw [Clean_ite]
          refine ⟨fun _ => ?_, fun _ => blSet_mono l (Nat.zero_le _)⟩
          rw [Clean_bind]
          exact blFinish_clean (mX _) (m1 _) ⟨Set.mem_insert_of_mem _ (mX _), Set.mem_insert_of_mem _ (mB _)⟩
        · simp only
          rw [Clean_pure]
          exact ⟨by simp, by simp⟩
    · intro s
      exact ⟨mX _, mB _⟩

/-! ### IDR(s) -/

theorem idrsOrth_clean (toR : S → R) (s : ℕ) (P : ℕ → ℕ) {V : Set ℕ} (hV : ∀ j, j < s → P j ∈ V) :
    (idrsOrth toR s P : Prog R S Unit).Clean (fun _ W => V ⊆ W) V := by
  unfold idrsOrth
  refine Clean_pfor (fun _ => V) (fun _ _ _ h h' => h.trans h') _ _ _ _ (Set.Subset.refl _) ?_ fun s => Set.Subset.refl _
  intro j _ _ hj
  have hj' := hV j (by omega)
  simp only [Clean_bind, Clean_vNrm2, Clean_vScale, Set.insert_eq_of_mem hj']
  refine ⟨hj', fun r => ⟨hj', ?_⟩⟩
  refine Clean_pfor (fun _ => V) (fun _ _ _ h h' => h.trans h') _ _ _ _ (Set.Subset.refl _) ?_ fun s => Set.Subset.refl _
  intro i _ h1 h2
  simp only [Clean_bind, Clean_vDot, Clean_vAxpy]
  exact ⟨hj', hV i (by omega), fun d => ⟨hj', hV i (by omega), Set.subset_insert _ _⟩⟩

def idSet (s k : ℕ) : Set ℕ := {hB, hX, wk 0} ∪ {u | (∃ i, i < s ∧ u = idP s i) ∨ ∃ i, i < k ∧ (u = idX i ∨ u = idR s i)}

theorem idSet_p {s k i : ℕ} (h : i < s) : idP s i ∈ idSet s k := Or.inr (Or.inl ⟨i, h, rfl⟩)
theorem idSet_x {s k i : ℕ} (h : i < k) : idX i ∈ idSet s k := Or.inr (Or.inr ⟨i, h, Or.inl rfl⟩)
theorem idSet_r {s k i : ℕ} (h : i < k) : idR s i ∈ idSet s k := Or.inr (Or.inr ⟨i, h, Or.inr rfl⟩)
theorem idSet_c {s k v : ℕ} (h : v = hB ∨ v = hX ∨ v = wk 0) : v ∈ idSet s k := Or.inl h

theorem idSet_succ (s k : ℕ) : insert (idR s k) (insert (idX k) (idSet s k)) = idSet s (k + 1) := by
  ext u
  simp only [idSet, Set.mem_insert_iff, Set.mem_union, Set.mem_setOf_eq, Set.mem_singleton_iff]
  constructor
  · rintro (h | h | h | h | ⟨i, hi, h⟩)
    · exact Or.inr (Or.inr ⟨k, by omega, Or.inr h⟩)
    · exact Or.inr (Or.inr ⟨k, by omega, Or.inl h⟩)
    · exact Or.inl h
    · exact Or.inr (Or.inl h)
    · exact Or.inr (Or.inr ⟨i, by omega, h⟩)
  · rintro (h | h | ⟨i, hi, h⟩)
    · exact Or.inr (Or.inr (Or.inl h))
    · exact Or.inr (Or.inr (Or.inr (Or.inl h)))
    · rcases Nat.lt_or_ge i k with h' | h'
      · exact Or.inr (Or.inr (Or.inr (Or.inr ⟨i, h', h⟩)))
      · rw [show i = k by omega] at h
        rcases h with h | h
        · exact Or.inr (Or.inl h)
        · exact Or.inl h

theorem idrsDots_clean (s v base : ℕ) (a : Arr R) {V : Set ℕ} (hv : v ∈ V) (hp : ∀ i, i < s → idP s i ∈ V) :
    (idrsDots s v base a : Prog R S _).Clean (fun _ W => V ⊆ W) V := by
  unfold idrsDots
  refine Clean_pfor (fun _ => V) (fun _ _ _ h h' => h.trans h') _ _ _ _ (Set.Subset.refl _) ?_ fun s => Set.Subset.refl _
  intro i a _ hi
  rw [Clean_bind, Clean_vDot]
  exact ⟨hp i (by omega), hv, fun d => Clean_aWr _ _ _ fun _ => Set.Subset.refl _⟩

theorem idrsInit_clean (s : ℕ) (o : Opts R S) (t : Tols S) (k : ℕ) (st : (Arr R × R) × S) (hk : k < s) :
    (idrsInit s o t k st).Clean (fun r W => match r with
      | .inl _ => idSet s (k + 1) ⊆ W
      | .inr _ => hX ∈ W ∧ hB ∈ W) (idSet s k) := by
  have mX : ∀ j, hX ∈ idSet s j := fun j => idSet_c (by simp)
  have mB : ∀ j, hB ∈ idSet s j := fun j => idSet_c (by simp)
  have m0 : ∀ j, wk 0 ∈ idSet s j := fun j => idSet_c (by simp)
  have x' : idX k ∈ idSet s (k + 1) := idSet_x (by omega)
  have r' : idR s k ∈ idSet s (k + 1) := idSet_r (by omega)
  unfold idrsInit
  rw [dif_pos hk]
  simp only [Clean_bind, Clean_mPsolve, Clean_mMatvec, Clean_vDot, Clean_vScale, Clean_vAxpy, idSet_succ,
    Set.insert_eq_of_mem x', Set.insert_eq_of_mem r', Set.insert_eq_of_mem (mX (k + 1)), Set.insert_eq_of_mem (m0 (k + 1))]
  refine ⟨m0 k, Set.mem_insert _ _, r', r', fun h => ⟨r', m0 _, fun om => ⟨x', r', x', mX _, r', m0 _, ?_⟩⟩⟩
  refine Clean_checkResid _ _ _ _ (m0 _) fun n2 => ?_
  simp only [Clean_ite, Clean_bind, Clean_pure]
  exact ⟨fun _ => ⟨mX _, mB _⟩, fun _ => (idrsDots_clean s _ _ _ r' fun i hi => idSet_p hi).mono' fun _ _ h => h⟩

theorem Clean_aList {V : Set ℕ} {post : List R → Set ℕ → Prop} (c : Arr R) (s : ℕ) (h : ∀ l : List R, l.length = s → post l V) :
    (aList c s : Prog R S _).Clean post V := by
  unfold aList
  split
  · trivial
  · rw [Clean_pure]; exact h _ (by simp)

theorem idrsDir_clean (s iter : ℕ) (om : R) (old : ℕ) (hs : 1 ≤ s) (ho : old < s) (cl : List R) (hcl : cl.length = s) {V : Set ℕ}
    (hV : idSet s s ⊆ V) (h2 : wk 2 ∈ V) :
    (idrsDir s iter om old hs cl : Prog R S R).Clean (fun _ W => V ⊆ W) V := by
  have hx : ∀ W, V ⊆ W → ∀ p ∈ cl.zipIdx.map (fun p => (-p.1, idX p.2)), p.2 ∈ W := by
    intro W hW p hp
    obtain ⟨⟨c, i⟩, hq, rfl⟩ := List.mem_map.1 hp
    have := List.snd_lt_of_mem_zipIdx hq
    simp only at this
    exact hW (hV (idSet_x (by omega)))
  have hr : ∀ W, V ⊆ W → ∀ p ∈ cl.zipIdx.map (fun p => (-p.1, idR s p.2)), p.2 ∈ W := by
    intro W hW p hp
    obtain ⟨⟨c, i⟩, hq, rfl⟩ := List.mem_map.1 hp
    have := List.snd_lt_of_mem_zipIdx hq
    simp only at this
    exact hW (hV (idSet_r (by omega)))
  have s1 : V ⊆ insert (wk 1) (insert (wk 3) V) := (Set.subset_insert _ _).trans (Set.subset_insert _ _)
  unfold idrsDir
  simp only [Clean_ite, Clean_bind, Clean_mPsolve, Clean_mMatvec, Clean_vDot, Clean_vComb, Clean_vScale, Clean_pure]
  refine ⟨fun _ => ?_, fun _ => ?_⟩
  · refine ⟨h2, by simp, by simp, by simp, fun h => ⟨by simp, by simp [h2], fun om => ⟨by simp, hx _ s1, by simp, ?_, ?_⟩⟩⟩
    · exact hr _ (s1.trans (Set.subset_insert _ _))
    · exact s1.trans ((Set.subset_insert _ _).trans (Set.subset_insert _ _))
  · refine ⟨h2, by simp, hx _ (Set.subset_insert _ _), by simp, by simp, ?_⟩
    exact ((Set.subset_insert _ _).trans (Set.subset_insert _ _)).trans ((Set.subset_insert _ _).trans (Set.subset_insert _ _))

theorem idrsBody_clean (s : ℕ) (o : Opts R S) (t : Tols S) (iter : ℕ) (st : IdrsSt R × S) (ho : s = 0 ∨ st.1.oldest < s) :
    (idrsBody s o t iter st).Clean (fun r W => match r with
      | .inl st' => idSet s s ⊆ W ∧ (s = 0 ∨ st'.1.oldest < s)
      | .inr _ => hX ∈ W ∧ hB ∈ W) (idSet s s) := by
  unfold idrsBody
  split
  swap
  · trivial
  rename_i hs
  have ho' : st.1.oldest < s := by omega
  rw [Clean_bind, Clean_ofOption]
  rintro ⟨c, MM⟩ -
  simp only
  rw [Clean_bind, Clean_vCopy]
  refine ⟨idSet_c (by simp), ?_⟩
  rw [Clean_bind]
  refine Clean_aList _ _ fun cl hcl => ?_
  obtain ⟨V, hV⟩ : ∃ V, V = insert (wk 2) (idSet s s) := ⟨_, rfl⟩
  have v2 : wk 2 ∈ V := by rw [hV]; simp
  have vs : idSet s s ⊆ V := by rw [hV]; exact Set.subset_insert _ _
  rw [← hV]
  refine Clean_cut (I := V) (J := fun _ => V) ?_ (Set.Subset.refl _)
    (Clean_pfor (fun _ => V) (fun _ _ _ h h' => h.trans h') _ _ _ _ (Set.Subset.refl _) ?_ fun s => Set.Subset.refl _) fun _ => ?_
  · rintro (r | r) W W' h hW
    · exact ⟨h.1.trans hW, h.2⟩
    · exact ⟨hW h.1, hW h.2⟩
  · intro j _ _ hj
    rw [Clean_bind]
    refine Clean_aRd _ _ fun cj => ?_
    rw [Clean_vAxpy]
    exact ⟨vs (idSet_r (by omega)), v2, Set.subset_insert _ _⟩
  rw [Clean_bind]
  refine (idrsDir_clean s iter st.1.om st.1.oldest hs ho' cl hcl vs v2).mono' ?_
  intro om W hW
  have ws := vs.trans hW
  have wX : hX ∈ W := ws (idSet_c (by simp))
  have wB : hB ∈ W := ws (idSet_c (by simp))
  have w0 : wk 0 ∈ W := ws (idSet_c (by simp))
  simp only [Clean_bind, Clean_vAxpy, Set.insert_eq_of_mem w0, Set.insert_eq_of_mem wX]
  refine ⟨ws (idSet_r ho'), w0, ws (idSet_x ho'), wX, ?_⟩
  refine Clean_checkResid _ _ _ _ w0 fun n2 => ?_
  simp only [Clean_ite, Clean_pure]
  refine ⟨fun _ => ⟨wX, wB⟩, fun _ => ?_⟩
  refine Clean_cut (I := W) (J := fun _ => W) ?_ (Set.Subset.refl _)
    (Clean_pfor (fun _ => W) (fun _ _ _ h h' => h.trans h') _ _ _ _ (Set.Subset.refl _) ?_ fun s => Set.Subset.refl _) fun r => ?_
  · rintro (r | r) W W' h hW
    · exact ⟨h.1.trans hW, h.2⟩
    · exact ⟨hW h.1, hW h.2⟩
  · intro i p _ hi
    rw [Clean_bind, Clean_vDot]
    refine ⟨ws (idSet_p (by omega)), ws (idSet_r ho'), fun h => ?_⟩
    rw [Clean_bind]
    refine Clean_aRd _ _ fun mi => ?_
    rw [Clean_bind]
    refine Clean_aWr _ _ _ fun m => ?_
    rw [Clean_bind]
    exact Clean_aWr _ _ _ fun M => Set.Subset.refl _
  · rw [Clean_pure]
    refine ⟨ws, Or.inr ?_⟩
    simp only
    split <;> omega

theorem idrs_clean (s : ℕ) (J : ℕ → R) (junk : S) (jom : R) (toR : S → R) (rnd : ℕ → ℕ → R) (o : Opts R S) :
    (lisIdrs s J junk jom toR rnd o).Clean (OutOk (Out S)) {hB, hX} := by
  have mX : ∀ j, hX ∈ idSet s j := fun j => idSet_c (by simp)
  have mB : ∀ j, hB ∈ idSet s j := fun j => idSet_c (by simp)
  have pm : ∀ r W W', OutOk (Out S) r W → W ⊆ W' → OutOk (Out S) r W' := fun _ _ _ h h' => ⟨h' h.1, h' h.2⟩
  unfold lisIdrs
  cl
  split
  · cl; cl_end
  · refine Clean_cut (I := {hB, hX, wk 0}) (J := fun _ => idSet s 0) pm (by simp [Set.insert_subset_iff])
      (Clean_pfor (fun k => {hB, hX, wk 0} ∪ {u | ∃ i, i < k ∧ u = idP s i}) (fun _ _ _ h h' => h.trans h') _ _ _ _ ?_ ?_ ?_)
      fun _ => ?_
    · rintro u (h | ⟨i, hi, h⟩)
      · exact h
      · omega
    · intro j _ _ _
      rw [Clean_vFill]
      rintro u (h | ⟨i, hi, rfl⟩)
      · exact Or.inr (Or.inl h)
      · rcases Nat.lt_or_ge i j with h | h
        · exact Or.inr (Or.inr ⟨i, h, rfl⟩)
        · rw [show i = j by omega]; exact Or.inl rfl
    · intro _
      rintro u (h | h | ⟨i, hi, h⟩)
      · exact Or.inl h
      · rw [Nat.zero_add]; exact Or.inr h
      · omega
    refine Clean_cut pm (Set.Subset.refl _) (J := fun _ => idSet s 0) (idrsOrth_clean toR s (idP s) fun j hj => idSet_p hj) fun _ => ?_
    refine Clean_cut pm (I := idSet s 0) (J := fun r => match r with
      | .inl _ => idSet s s
      | .inr _ => {hX, hB}) (Set.Subset.refl _) (Clean_forIter (idSet s) ?_ _ _ _ _ (Set.Subset.refl _)
        (fun j st _ h => (idrsInit_clean s o _ j st (by omega)).mono' ?_) ?_) ?_
    · rintro (r | r) W W' h hW
      · exact Set.Subset.trans h hW
      · exact Set.Subset.trans h hW
    · rintro (r | r) W h
      · exact h
      · simp only [Set.insert_subset_iff, Set.singleton_subset_iff]; exact h
    · intro st; rw [Nat.zero_add]
    · rintro (st | out)
      · simp only
        refine Clean_cut pm (J := fun _ => idSet s s) (Set.Subset.refl _) (idrsDots_clean s _ _ _ (idSet_c (by simp)) fun i hi => idSet_p hi)
          fun m => ?_
        rw [Clean_bind]
        refine Clean_forIterP (fun _ => idSet s s) (fun st => s = 0 ∨ st.1.oldest < s) ?_ _ _ _ _ (Set.Subset.refl _) ?_
          (fun j st _ _ h => (idrsBody_clean s o _ j st h).mono' ?_) ?_
        · rintro (r | r) W W' ⟨h1, h2⟩ hW
          · exact ⟨hW h1, hW h2⟩
          · exact ⟨hW h1, hW h2⟩
        · simp only; omega
        · rintro (r | r) W h
          · exact h
          · exact h
        · intro st _; exact ⟨mX _, mB _⟩
      · simp only
        rw [Clean_pure]
        exact ⟨by simp, by simp⟩

theorem idr1_clean (toR : S → R) (rnd : ℕ → R) (o : Opts R S) : (lisIdr1 toR rnd o).Clean (OutOk (Out S)) {hB, hX} := by
  have pm : ∀ r W W', OutOk (Out S) r W → W ⊆ W' → OutOk (Out S) r W' := fun _ _ _ h h' => ⟨h' h.1, h' h.2⟩
  unfold lisIdr1
  cl
  split
  · cl; cl_end
  · rw [Clean_bind, Clean_vFill]
    refine Clean_cut pm (Set.Subset.refl _) (J := fun _ => {hB, hX, wk 0, wk 4})
      ((idrsOrth_clean toR 1 (fun _ => wk 4) fun j hj => by simp).mono' fun _ W h => Set.Subset.trans (by cl_end) h) fun _ => ?_
    cl
    · cl_end
    · refine Clean_forIter (fun _ => {hB, hX, wk 0, wk 4, wk 5, wk 6}) ?_ _ _ _ _ (by cl_end) ?_ ?_
      · rintro (r | r) W W' ⟨h1, h2⟩ hW
        · exact ⟨hW h1, hW h2⟩
        · exact ⟨hW h1, hW h2⟩
      · intro j st _ _
        unfold idr1Body
        repeat' first | with_reducible refine (Clean_vComb _ _ _ _).2 ⟨by cl_mem, by simp [hB, hX], ?_⟩ | cl1
        all_goals first | cl_end | exact ⟨by simp, by simp⟩
      · intro st; exact ⟨by simp, by simp⟩

end
end Lis
