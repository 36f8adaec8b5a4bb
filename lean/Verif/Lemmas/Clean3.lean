import Verif.Lemmas.Clean2

/-! Restarted solvers: GMRES, FGMRES, Orthomin, and the stationary methods -/

namespace Lis
variable {R S : Type} {α β : Type}

theorem Clean_cut {V I : Set ℕ} {J : α → Set ℕ} {p : Prog R S α} {f : α → Prog R S β} {post : β → Set ℕ → Prop}
    (hpost : ∀ r W W', post r W → W ⊆ W' → post r W') (hI : I ⊆ V) (hp : p.Clean (fun a W => J a ⊆ W) I)
    (hf : ∀ a, (f a).Clean post (J a)) : (p >>= f).Clean post V := by
  rw [Clean_bind]
  refine hp.mono hI ?_
  intro a W W' h hW
  exact (hf a).mono (h.trans hW) hpost

theorem Clean_sub {p : Prog R S α} {J : α → Set ℕ} {I V : Set ℕ} {post : α → Set ℕ → Prop} (hI : I ⊆ V)
    (hp : p.Clean (fun a W => J a ⊆ W) I) (hpost : ∀ a W, J a ⊆ W → post a W) : p.Clean post V := by
  refine hp.mono hI ?_
  intro a W W' h hW
  exact hpost a W' (h.trans hW)

theorem Clean_aUse {post : R → Set ℕ → Prop} {V : Set ℕ} (a : Arr (Option R)) (i : ℕ) (h : ∀ r, post r V) :
    (aUse a i : Prog R S R).Clean post V := by
  unfold aUse
  rw [Clean_ofOption]
  intro r _
  exact h r

theorem Clean_aRd {post : α → Set ℕ → Prop} {V : Set ℕ} (a : Arr α) (i : ℕ) (h : ∀ r, post r V) :
    (aRd a i : Prog R S α).Clean post V := by
  unfold aRd
  rw [Clean_ofOption]
  intro r _
  exact h r

theorem Clean_aWr {post : Arr α → Set ℕ → Prop} {V : Set ℕ} (a : Arr α) (i : ℕ) (v : α) (h : ∀ r, post r V) :
    (aWr a i v : Prog R S (Arr α)).Clean post V := by
  unfold aWr
  rw [Clean_ofOption]
  intro r _
  exact h r

/-- a program that reads and writes no vector -/
def Prog.Scalar (p : Prog R S α) : Prop := ∀ (V : Set ℕ) (post : α → Set ℕ → Prop), (∀ a, post a V) → p.Clean post V

theorem Scalar_pfor {σ : Type} {body : ℕ → σ → Prog R S σ} (h : ∀ j s, (body j s).Scalar) :
    ∀ k i s, (pfor body k i s).Scalar := by
  intro k
  induction k with
  | zero => intro i s V post hp; exact hp s
  | succ k ih =>
    intro i s V post hp
    unfold pfor
    rw [Clean_bind]
    exact h _ _ _ _ fun a => ih _ _ _ _ hp

macro "cs" : tactic => `(tactic| repeat' first
  | with_reducible refine Clean_aUse _ _ ?_ | with_reducible refine Clean_aRd _ _ ?_ | with_reducible refine Clean_aWr _ _ _ ?_
  | cl1)

section
variable [Zero R] [One R] [Add R] [Neg R] [Mul R] [Div R] [Sub R] [Star R] [DecidableEq R] [RealOps S]

/-! ### GMRES -/

/-- the vectors known before column `ii` -/
def gmSet (v z : ℕ → ℕ) (ii : ℕ) : Set ℕ := {hB, hX} ∪ {u | (∃ j, j ≤ ii ∧ u = v j) ∨ ∃ j, j < ii ∧ u = z j}

theorem gmSet_v {v z : ℕ → ℕ} {ii j : ℕ} (h : j ≤ ii) : v j ∈ gmSet v z ii := Or.inr (Or.inl ⟨j, h, rfl⟩)
theorem gmSet_z {v z : ℕ → ℕ} {ii j : ℕ} (h : j < ii) : z j ∈ gmSet v z ii := Or.inr (Or.inr ⟨j, h, rfl⟩)
theorem gmSet_B {v z : ℕ → ℕ} {ii : ℕ} : hB ∈ gmSet v z ii := Or.inl (by simp)
theorem gmSet_X {v z : ℕ → ℕ} {ii : ℕ} : hX ∈ gmSet v z ii := Or.inl (by simp)

theorem gmSet_succ (v z : ℕ → ℕ) (ii : ℕ) : gmSet v z (ii + 1) = insert (v (ii + 1)) (insert (z ii) (gmSet v z ii)) := by
  ext u
  simp only [gmSet, Set.mem_insert_iff, Set.mem_union, Set.mem_setOf_eq, Set.mem_singleton_iff]
  constructor
  · rintro (h | ⟨j, hj, rfl⟩ | ⟨j, hj, rfl⟩)
    · exact Or.inr (Or.inr (Or.inl h))
    · rcases Nat.lt_or_ge ii j with h | h
      · rw [show j = ii + 1 by omega]; exact Or.inl rfl
      · exact Or.inr (Or.inr (Or.inr (Or.inl ⟨j, h, rfl⟩)))
    · rcases Nat.lt_or_ge j ii with h | h
      · exact Or.inr (Or.inr (Or.inr (Or.inr ⟨j, h, rfl⟩)))
      · rw [show j = ii by omega]; exact Or.inr (Or.inl rfl)
  · rintro (rfl | rfl | h | ⟨j, hj, rfl⟩ | ⟨j, hj, rfl⟩)
    · exact Or.inr (Or.inl ⟨_, le_refl _, rfl⟩)
    · exact Or.inr (Or.inr ⟨_, by omega, rfl⟩)
    · exact Or.inl h
    · exact Or.inr (Or.inl ⟨j, by omega, rfl⟩)
    · exact Or.inr (Or.inr ⟨j, by omega, rfl⟩)

theorem gmArnoldi_clean (F : GmFns R S) (m : ℕ) (v z : ℕ → ℕ) (ii : ℕ) (a : Arr (Option R)) :
    (gmArnoldi F m v ii a : Prog R S _).Clean (fun _ W => gmSet v z (ii + 1) ⊆ W) (gmSet v z (ii + 1)) := by
  have hv : ∀ {j}, j ≤ ii + 1 → insert (v j) (gmSet v z (ii + 1)) = gmSet v z (ii + 1) :=
    fun h => Set.insert_eq_of_mem (gmSet_v h)
  unfold gmArnoldi
  refine Clean_cut (I := gmSet v z (ii + 1)) (J := fun _ => gmSet v z (ii + 1)) (fun _ _ _ h h' => h.trans h') (Set.Subset.refl _)
    (Clean_pfor (fun _ => gmSet v z (ii + 1)) (fun _ _ _ h h' => h.trans h') _ _ _ _ (Set.Subset.refl _) ?_
      fun s => Set.Subset.refl _) ?_
  · intro j s h1 h2
    simp only [Clean_bind, Clean_vDot]
    refine ⟨gmSet_v (le_refl _), gmSet_v (by omega), fun r => ?_⟩
    refine Clean_aWr _ _ _ fun a => ?_
    simp only [Clean_vAxpy, Clean_pure, hv (le_refl _)]
    exact ⟨gmSet_v (by omega), gmSet_v (le_refl _), Set.Subset.refl _⟩
  · intro a
    simp only [Clean_bind, Clean_vNrm2]
    refine ⟨gmSet_v (le_refl _), fun r => ?_⟩
    refine Clean_aWr _ _ _ fun a => ?_
    simp only [Clean_vScale, Clean_pure, hv (le_refl _)]
    exact ⟨gmSet_v (le_refl _), Set.Subset.refl _⟩

theorem gmRotate_scalar (m ii : ℕ) (a : Arr (Option R)) : (gmRotate m ii a : Prog R S _).Scalar := by
  unfold gmRotate
  refine Scalar_pfor ?_ _ _ _
  intro j s V post h
  cs
  exact h _

theorem gmGivens_scalar (F : GmFns R S) (m ii : ℕ) (a : Arr (Option R)) (s : Arr R) : (gmGivens F m ii a s : Prog R S _).Scalar := by
  intro V post h
  unfold gmGivens
  cs
  exact h _

theorem gmStep_clean (F : GmFns R S) (m : ℕ) (v z : ℕ → ℕ) (hvz : ∀ i, v i ≠ z i ∧ z i ≠ v (i + 1)) (fin : S → S) (o : Opts R S)
    (iter ii : ℕ) (a : Arr (Option R)) (s : Arr R) :
    (gmStep F m v z hvz fin o iter ii a s).Clean (fun _ W => gmSet v z (ii + 1) ⊆ W) (gmSet v z ii) := by
  unfold gmStep
  simp only [Clean_bind, Clean_mPsolve, Clean_mMatvec]
  refine ⟨gmSet_v (le_refl _), Set.mem_insert _ _, ?_⟩
  rw [← gmSet_succ]
  refine (gmArnoldi_clean F m v z ii a).mono' ?_
  intro a W hW
  refine gmRotate_scalar _ _ _ _ _ fun a => ?_
  refine gmGivens_scalar _ _ _ _ _ _ _ fun a => ?_
  cs <;> exact hW

theorem gmInner_clean (F : GmFns R S) (m : ℕ) (v z : ℕ → ℕ) (hvz : ∀ i, v i ≠ z i ∧ z i ≠ v (i + 1)) (fin : S → S) (o : Opts R S)
    (tol : S) : ∀ (k iter ii : ℕ) (a : Arr (Option R)) (s : Arr R) (V : Set ℕ), gmSet v z ii ⊆ V →
    (gmInner F m v z hvz fin o tol k iter ii a s).Clean (fun r W => gmSet v z (r.2.2.2 + 1) ⊆ W) V := by
  intro k
  induction k with
  | zero =>
    intro iter ii a s V h
    unfold gmInner
    exact Clean_cut (fun _ _ _ h h' => h.trans h') h (gmStep_clean F m v z hvz fin o _ ii a s) fun _ => Set.Subset.refl _
  | succ k ih =>
    intro iter ii a s V h
    unfold gmInner
    refine Clean_cut (fun _ _ _ h h' => h.trans h') h (gmStep_clean F m v z hvz fin o _ ii a s) fun r => ?_
    simp only [Clean_ite, Clean_pure]
    exact ⟨fun _ => Set.Subset.refl _, fun _ => ih _ _ _ _ _ (Set.Subset.refl _)⟩

theorem gmBack_scalar (m ii : ℕ) (a : Arr (Option R)) : ∀ k s, (gmBack m ii a k s : Prog R S _).Scalar := by
  intro k
  induction k with
  | zero => intro s V post h; exact h _
  | succ k ih =>
    intro s V post h
    unfold gmBack
    rw [Clean_bind]
    refine Clean_aRd _ _ fun t => ?_
    rw [Clean_bind]
    refine Scalar_pfor (fun j s V post h => ?_) _ _ _ _ _ fun t => ?_
    · cs; exact h _
    · rw [Clean_bind]
      refine Clean_aUse _ _ fun t => ?_
      rw [Clean_bind]
      refine Clean_aWr _ _ _ fun s => ?_
      exact ih _ _ _ h

theorem gmSolve_scalar (m ii : ℕ) (a : Arr (Option R)) (s : Arr R) : (gmSolve m ii a s : Prog R S _).Scalar := by
  intro V post h
  unfold gmSolve
  cs
  exact gmBack_scalar _ _ _ _ _ _ _ h

theorem gmUnrot_scalar (m : ℕ) (a : Arr (Option R)) : ∀ k s, (gmUnrot m a k s : Prog R S _).Scalar := by
  intro k
  induction k with
  | zero => intro s V post h; exact h _
  | succ k ih =>
    intro s V post h
    unfold gmUnrot
    cs
    exact ih _ _ _ h

theorem gmUpdate_clean (ii : ℕ) (y : Arr R) {V : Set ℕ} (hV : gmSet gmV (fun _ => wk 2) (ii + 1) ⊆ V) :
    (gmUpdate ii y : Prog R S Unit).Clean (fun _ W => V ⊆ W) V := by
  have h2 : wk 2 ∈ V := hV (gmSet_z (z := fun _ => wk 2) (j := 0) (by omega))
  unfold gmUpdate
  rw [Clean_bind]
  refine Clean_aRd _ _ fun y0 => ?_
  rw [Clean_bind, Clean_vComb]
  refine ⟨hV (gmSet_v (by omega)), by simp, ?_⟩
  rw [Set.insert_eq_of_mem h2]
  refine Clean_cut (I := V) (J := fun _ => V) (fun _ _ _ h h' => h.trans h') (Set.Subset.refl _)
    (Clean_pfor (fun _ => V) (fun _ _ _ h h' => h.trans h') _ _ _ _ (Set.Subset.refl _) ?_ fun s => Set.Subset.refl _) ?_
  · intro j s h1 h3
    rw [Clean_bind]
    refine Clean_aRd _ _ fun t => ?_
    rw [Clean_vAxpy]
    exact ⟨hV (gmSet_v (by omega)), h2, Set.subset_insert _ _⟩
  · intro _
    simp only [Clean_bind, Clean_mPsolve, Clean_vAxpy]
    exact ⟨h2, Set.mem_insert _ _, Set.mem_insert_of_mem _ (hV gmSet_X), (Set.subset_insert _ _).trans (Set.subset_insert _ _)⟩

theorem gmRestart_clean (ii : ℕ) (s : Arr R) {V : Set ℕ} (hV : gmSet gmV (fun _ => wk 2) ii ⊆ V) :
    (gmRestart ii s : Prog R S Unit).Clean (fun _ W => V ⊆ W) V := by
  unfold gmRestart
  refine Clean_pfor (fun _ => V) (fun _ _ _ h h' => h.trans h') _ _ _ _ (Set.Subset.refl _) ?_ fun s => Set.Subset.refl _
  intro j s h1 h3
  rw [Clean_bind]
  refine Clean_aRd _ _ fun t => ?_
  rw [Clean_vAxpy]
  exact ⟨hV (gmSet_v (by omega)), hV (gmSet_v (by omega)), Set.subset_insert _ _⟩

theorem gmres_clean (F : GmFns R S) (m : ℕ) (junk : S) (o : Opts R S) : (lisGmres F m junk o).Clean (OutOk (Out S)) {hB, hX} := by
  have e0 : gmSet gmV (fun _ => wk 2) 0 = {gmV 0, hB, hX} := by
    ext u; simp only [gmSet, Set.mem_union, Set.mem_setOf_eq, Set.mem_insert_iff, Set.mem_singleton_iff]
    constructor
    · rintro (h | ⟨j, hj, rfl⟩ | ⟨j, hj, rfl⟩)
      · exact Or.inr h
      · rw [show j = 0 by omega]; exact Or.inl rfl
      · omega
    · rintro (rfl | h)
      · exact Or.inr (Or.inl ⟨0, le_refl _, rfl⟩)
      · exact Or.inl h
  unfold lisGmres
  cl
  split
  · cl; cl_end
  · rw [Clean_bind]
    refine Clean_forIter (fun _ => gmSet gmV (fun _ => wk 2) 0) ?_ _ _ _ _ ?_ ?_ ?_
    · rintro (r | r) W W' ⟨h1, h2⟩ hW
      · exact ⟨hW h1, hW h2⟩
      · exact ⟨hW h1, hW h2⟩
    · rw [e0]
      simp [Set.insert_subset_iff]
    · intro j s _ _
      unfold gmresBody
      simp only [Clean_bind, Clean_vNrm2, Clean_vScale]
      refine ⟨gmSet_v (le_refl _), fun r => ⟨gmSet_v (le_refl _), ?_⟩⟩
      rw [Set.insert_eq_of_mem (gmSet_v (le_refl _))]
      refine Clean_aWr _ _ _ fun s => ?_
      refine (gmInner_clean F m gmV (fun _ => wk 2) gmV_ne _ o _ _ _ 0 _ _ _ (Set.Subset.refl _)).mono' ?_
      rintro ⟨a, s, nrm2, ii⟩ W hW
      refine gmSolve_scalar _ _ _ _ _ _ fun s => ?_
      refine (gmUpdate_clean ii s hW).mono' ?_
      intro _ W' hW'
      have hX' := hW' (hW gmSet_X)
      have hB' := hW' (hW gmSet_B)
      simp only [Clean_ite, Clean_pure, Clean_bind]
      refine ⟨fun _ => ⟨hX', hB'⟩, fun _ => ?_⟩
      refine gmUnrot_scalar _ _ _ _ _ _ fun s => ?_
      refine (gmRestart_clean (ii + 1) s (hW.trans hW')).mono' ?_
      intro _ W'' hW''
      refine Set.Subset.trans ?_ (hW.trans (hW'.trans hW''))
      rw [e0]
      simp only [Set.insert_subset_iff, Set.singleton_subset_iff]
      exact ⟨gmSet_v (by omega), gmSet_B, gmSet_X⟩
    · intro s
      exact ⟨gmSet_X, gmSet_B⟩

theorem fgmres_clean (F : GmFns R S) (m : ℕ) (hm : 1 ≤ m) (junk : S) (o : Opts R S) :
    (lisFgmres F m hm junk o).Clean (OutOk (Out S)) {hB, hX} := by
  have e0 : gmSet (fgV m) fgZ 0 = {fgV m 0, hB, hX} := by
    ext u; simp only [gmSet, Set.mem_union, Set.mem_setOf_eq, Set.mem_insert_iff, Set.mem_singleton_iff]
    constructor
    · rintro (h | ⟨j, hj, rfl⟩ | ⟨j, hj, rfl⟩)
      · exact Or.inr h
      · rw [show j = 0 by omega]; exact Or.inl rfl
      · omega
    · rintro (rfl | h)
      · exact Or.inr (Or.inl ⟨0, le_refl _, rfl⟩)
      · exact Or.inl h
  unfold lisFgmres
  cl
  split
  · cl; cl_end
  · rw [Clean_bind]
    refine Clean_forIter (fun _ => gmSet (fgV m) fgZ 0) ?_ _ _ _ _ ?_ ?_ ?_
    · rintro (r | r) W W' ⟨h1, h2⟩ hW
      · exact ⟨hW h1, hW h2⟩
      · exact ⟨hW h1, hW h2⟩
    · rw [e0]
    · intro j s _ _
      unfold fgmresBody
      simp only [Clean_bind, Clean_vScale]
      refine ⟨gmSet_v (le_refl _), ?_⟩
      rw [Set.insert_eq_of_mem (gmSet_v (le_refl _))]
      refine Clean_aWr _ _ _ fun s => ?_
      refine (gmInner_clean F m (fgV m) fgZ (fgV_ne m hm) _ o _ _ _ 0 _ _ _ (Set.Subset.refl _)).mono' ?_
      rintro ⟨a, s, nrm2, ii⟩ W hW
      refine gmSolve_scalar _ _ _ _ _ _ fun s => ?_
      have hu : (fgUpdate ii s : Prog R S Unit).Clean (fun _ W' => W ⊆ W') W := by
        unfold fgUpdate
        refine Clean_pfor (fun _ => W) (fun _ _ _ h h' => h.trans h') _ _ _ _ (Set.Subset.refl _) ?_ fun s => Set.Subset.refl _
        intro j s h1 h3
        rw [Clean_bind]
        refine Clean_aRd _ _ fun t => ?_
        rw [Clean_vAxpy]
        exact ⟨hW (gmSet_z (by simp only; omega)), hW gmSet_X, Set.subset_insert _ _⟩
      refine hu.mono' ?_
      intro _ W' hW'
      have hX' := hW' (hW gmSet_X)
      have hB' := hW' (hW gmSet_B)
      simp only [Clean_ite, Clean_pure, Clean_bind, Clean_mMatvec, Clean_vXpay, Clean_vNrm2]
      refine ⟨fun _ => ⟨hX', hB'⟩, fun _ => ⟨hX', Set.mem_insert_of_mem _ hB', Set.mem_insert _ _, Set.mem_insert _ _, fun _ => ?_⟩⟩
      rw [e0]
      simp only [Set.insert_subset_iff, Set.singleton_subset_iff]
      exact ⟨Set.mem_insert _ _, by simp [hB'], by simp [hX']⟩
    · intro s
      exact ⟨gmSet_X, gmSet_B⟩
end
end Lis
