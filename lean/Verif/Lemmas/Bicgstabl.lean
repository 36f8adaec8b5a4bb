import Verif.Model.Bicgstabl
import Verif.Lemmas.SolverLast

namespace Lis
variable {R S : Type} {n : ℕ}

theorem bl_bound {l i j : ℕ} (hi : i ≤ l) (hj : j ≤ l) : i * (l + 1) + j < (l + 1) * (l + 1) := by
  have : i * (l + 1) ≤ l * (l + 1) := Nat.mul_le_mul_right _ hi
  have : (l + 1) * (l + 1) = l * (l + 1) + (l + 1) := by ring
  omega

theorem bl_size (l : ℕ) : (l + 1) * (4 + l + 1) = (l + 1) * (l + 1) + 4 * (l + 1) := by ring

/-- indices of the block of scalars are inside -/
macro "blidx" : tactic => `(tactic| first
  | (rw [‹Arr.size _ = _›, bl_size]; simp only [blGamma, blGamma1, blGamma2, blSigma]; omega)
  | (rw [‹Arr.size _ = _›, bl_size]; exact Nat.lt_add_right _ (bl_bound (by omega) (by omega))))

section
variable [Zero R] [One R] [Add R] [Neg R] [Mul R] [Div R] [Sub R] [Star R] [DecidableEq R] [RealOps S]

omit [Zero R] [One R] [Div R] [Sub R] [DecidableEq R] [RealOps S] in
theorem blXpay_ok (K : Kit R S n) (l : ℕ) (beta : R) (j : ℕ) (hj : j < l) (s : MSt R S n) :
    Ok ((blXpay l beta j).run K s) fun r => r.2.hist = s.hist ∧
      (∀ i, i ≤ j → r.2.h (blU l i) = fun x => s.h (blR i) x + -beta * s.h (blU l i) x) ∧
      (∀ k, (∀ i, i ≤ j → k ≠ blU l i) → r.2.h k = s.h k) := by
  unfold blXpay
  refine Ok_pfor (fun i _ s' => s'.hist = s.hist ∧
      (∀ i', i' < i → s'.h (blU l i') = fun x => s.h (blR i') x + -beta * s.h (blU l i') x) ∧
      (∀ k, (∀ i', i' < i → k ≠ blU l i') → s'.h k = s.h k)) (j + 1) 0 () s
    ⟨rfl, fun _ h => absurd h (by omega), fun _ _ => rfl⟩ ?_ ?_
  · rintro i _ s' - hi ⟨h1, h2, h3⟩
    refine Ok_vop1 fun w hw => ⟨h1, ?_, ?_⟩
    · intro i' hi'
      simp only [VOp.dst]
      by_cases he : i' = i
      · subst he
        rw [Function.update_self, hw]
        simp only [VOp.val]
        rw [h3 (blR i') (by intro a _; simp only [blR, blU, wk]; omega),
          h3 (blU l i') (by intro a _; simp only [blU, wk]; omega)]
      · rw [Function.update_of_ne (by simp only [blU, wk]; omega)]
        exact h2 i' (by omega)
    · intro k hk
      simp only [VOp.dst]
      rw [Function.update_of_ne (hk i (by omega))]
      exact h3 k fun i' h => hk i' (by omega)
  · rintro _ s' ⟨h1, h2, h3⟩
    exact ⟨h1, fun i hi => h2 i (by omega), fun k hk => h3 k fun i hi => hk i (by omega)⟩

omit [Zero R] [One R] [Div R] [Sub R] [DecidableEq R] [RealOps S] in
theorem blAxpy_ok (K : Kit R S n) (l : ℕ) (alpha : R) (j : ℕ) (hj : j < l) (s : MSt R S n) :
    Ok ((blAxpy l alpha j).run K s) fun r => r.2.hist = s.hist ∧
      (∀ i, i ≤ j → r.2.h (blR i) = fun x => s.h (blR i) x + -alpha * s.h (blU l (i + 1)) x) ∧
      (∀ k, (∀ i, i ≤ j → k ≠ blR i) → r.2.h k = s.h k) := by
  unfold blAxpy
  refine Ok_pfor (fun i _ s' => s'.hist = s.hist ∧
      (∀ i', i' < i → s'.h (blR i') = fun x => s.h (blR i') x + -alpha * s.h (blU l (i' + 1)) x) ∧
      (∀ k, (∀ i', i' < i → k ≠ blR i') → s'.h k = s.h k)) (j + 1) 0 () s
    ⟨rfl, fun _ h => absurd h (by omega), fun _ _ => rfl⟩ ?_ ?_
  · rintro i _ s' - hi ⟨h1, h2, h3⟩
    refine Ok_vop1 fun w hw => ⟨h1, ?_, ?_⟩
    · intro i' hi'
      simp only [VOp.dst]
      by_cases he : i' = i
      · subst he
        rw [Function.update_self, hw]
        simp only [VOp.val]
        rw [h3 (blR i') (by intro a _; simp only [blR, wk]; omega),
          h3 (blU l (i' + 1)) (by intro a _; simp only [blR, blU, wk]; omega)]
      · rw [Function.update_of_ne (by simp only [blR, wk]; omega)]
        exact h2 i' (by omega)
    · intro k hk
      simp only [VOp.dst]
      rw [Function.update_of_ne (hk i (by omega))]
      exact h3 k fun i' h => hk i' (by omega)
  · rintro _ s' ⟨h1, h2, h3⟩
    exact ⟨h1, fun i hi => h2 i (by omega), fun k hk => h3 k fun i hi => hk i (by omega)⟩

omit [Zero R] [Neg R] [Div R] [Sub R] [DecidableEq R] [RealOps S] in
theorem blFinish_ok (K : Kit R S n) (s : MSt R S n) :
    Ok ((blFinish (R := R) (S := S)).run K s) fun r => r.2.hist = s.hist ∧
      (r.2.h hX = fun i => K.ps (s.h hX) i + 1 * s.h (wk 1) i) ∧ (∀ k, k ≠ hX → k ≠ wk 3 → r.2.h k = s.h k) := by
  unfold blFinish
  simp only [mPsolve, vCopy, vAxpy]
  refine Ok_vop fun w1 h1 => Ok_vop fun w2 h2 => Ok_vop1 fun w3 h3 => ⟨rfl, ?_, fun k hk1 hk2 => ?_⟩
  · vlook
    vlook at h3
    vlook at h2
    rw [h3, h2, h1]
    rfl
  · simp only [VOp.dst]
    rw [Function.update_of_ne hk1, Function.update_of_ne hk1, Function.update_of_ne hk2]

/-! ### the scalar block: definedness -/

omit [Neg R] [Div R] [Sub R] [DecidableEq R] [RealOps S] [One R] in
theorem blSum_ok (K : Kit R S n) (l j sh : ℕ) (a : Arr (Option R)) (k lo : ℕ) (s : MSt R S n)
    (hsz : a.size = (l + 1) * (4 + l + 1)) (hj : j ≤ l) (hlo : k = 0 ∨ lo + k + sh ≤ l + 1)
    (ht : ∀ i, lo ≤ i → i < lo + k → a.get (blTau l j i) ≠ none)
    (hg : ∀ i, lo ≤ i → i < lo + k → a.get (blGamma l (i + sh)) ≠ none) :
    Ok ((blSum l j sh a k lo).run K s) fun r => r.2 = s := by
  unfold blSum
  refine Ok_pfor (fun _ _ s' => s' = s) k lo 0 s rfl ?_ (fun _ _ h => h)
  rintro i nu s' h1 h2 rfl
  refine Ok_aUse (by blidx) (ht i h1 h2) fun x _ => Ok_aUse (by blidx) (hg i h1 h2) fun g _ => Ok_ret rfl

/-- an array where everything assigned before is still assigned -/
def ArrMono (a a' : Arr (Option R)) : Prop := a'.size = a.size ∧ ∀ k, a.get k ≠ none → a'.get k ≠ none

omit [Zero R] [One R] [Add R] [Neg R] [Mul R] [Div R] [Sub R] [Star R] [DecidableEq R] in
theorem ArrMono.refl (a : Arr (Option R)) : ArrMono a a := ⟨rfl, fun _ h => h⟩
omit [Zero R] [One R] [Add R] [Neg R] [Mul R] [Div R] [Sub R] [Star R] [DecidableEq R] in
theorem ArrMono.trans {a b c : Arr (Option R)} (h : ArrMono a b) (h' : ArrMono b c) : ArrMono a c :=
  ⟨h'.1.trans h.1, fun k hk => h'.2 k (h.2 k hk)⟩
omit [Zero R] [One R] [Add R] [Neg R] [Mul R] [Div R] [Sub R] [Star R] [DecidableEq R] in
theorem ArrMono.set (a : Arr (Option R)) (i : ℕ) (v : R) : ArrMono a (a.set i (some v)) :=
  ⟨rfl, fun k hk => by rw [Arr.set_get]; split <;> simp_all⟩

theorem blOrth_ok (K : Kit R S n) (l j : ℕ) (a : Arr (Option R)) (s : MSt R S n)
    (hsz : a.size = (l + 1) * (4 + l + 1)) (h1 : 1 ≤ j) (hj : j ≤ l)
    (hs : ∀ i, 1 ≤ i → i < j → a.get (blSigma l i) ≠ none) :
    Ok ((blOrth l j a).run K s) fun r => r.2.hist = s.hist ∧ (∀ k, k ≠ blR j → r.2.h k = s.h k) ∧ ArrMono a r.1 ∧
      r.1.get (blSigma l j) ≠ none ∧ r.1.get (blGamma1 l j) ≠ none ∧
      ∀ i, 1 ≤ i → i < j → r.1.get (blTau l i j) ≠ none := by
  unfold blOrth
  refine Ok_pbind (Ok_pfor (fun i a' s' => s'.hist = s.hist ∧ (∀ k, k ≠ blR j → s'.h k = s.h k) ∧ ArrMono a a' ∧
      ∀ i', 1 ≤ i' → i' < i → a'.get (blTau l i' j) ≠ none) (j - 1) 1 a s
    ⟨rfl, fun _ _ => rfl, .refl a, fun _ _ _ => by omega⟩ ?_ ?_)
  · rintro i a' s' hi1 hi2 ⟨e1, e2, e3, e4⟩
    have hsz' := e3.1.trans hsz
    refine Ok_red fun nu _ => Ok_aUse (by blidx) (e3.2 _ (hs i hi1 (by omega))) fun si _ => Ok_aWr (by blidx)
      (Ok_vop fun w _ => Ok_ret ⟨e1, fun k hk => ?_, e3.trans (.set _ _ _), fun i' h1 h2 => ?_⟩)
    · simp only [VOp.dst]
      rw [Function.update_of_ne hk]; exact e2 k hk
    · by_cases he : i' = i
      · subst he; simp
      · exact (ArrMono.set _ _ _).2 _ (e4 i' h1 (by omega))
  · rintro a' s' ⟨e1, e2, e3, e4⟩
    have hsz' := e3.1.trans hsz
    refine Ok_red fun sj _ => Ok_aWr (by blidx) (Ok_red fun nu _ => Ok_aUse ?_ (by simp) fun x _ => ?_)
    · simp only [Arr.set_size]; blidx
    · have hsz'' : (a'.set (blSigma l j) (some sj)).size = (l + 1) * (4 + l + 1) := hsz'
      have hlt : blGamma1 l j < (a'.set (blSigma l j) (some sj)).size := by blidx
      have : (aWr (a'.set (blSigma l j) (some sj)) (blGamma1 l j) (some (nu / x)) : Prog R S _) =
          .ret ((a'.set (blSigma l j) (some sj)).set (blGamma1 l j) (some (nu / x))) := by
        simp only [aWr, Arr.wr, hlt, if_true, Prog.ofOption]
      rw [this]
      refine Ok_ret ⟨e1, e2, e3.trans ((ArrMono.set _ _ _).trans (.set _ _ _)), (ArrMono.set _ _ _).2 _ (by simp),
        by simp, fun i h1 h2 => (ArrMono.set _ _ _).2 _ ((ArrMono.set _ _ _).2 _ (e4 i h1 (by omega)))⟩

theorem blBack_ok (K : Kit R S n) (l : ℕ) (s : MSt R S n) : ∀ (k : ℕ) (a : Arr (Option R)),
    a.size = (l + 1) * (4 + l + 1) → k < l →
    (∀ i j, 1 ≤ i → i < j → j ≤ l → a.get (blTau l i j) ≠ none) →
    (∀ j, 1 ≤ j → j ≤ l → a.get (blGamma1 l j) ≠ none) →
    (∀ j, k < j → j ≤ l → a.get (blGamma l j) ≠ none) →
    Ok ((blBack l k a).run K s) fun r => r.2 = s ∧ ArrMono a r.1 ∧
      ∀ j, 1 ≤ j → j ≤ l → r.1.get (blGamma l j) ≠ none := by
  intro k
  induction k with
  | zero =>
    intro a hsz hk ht hg1 hg
    exact Ok_ret ⟨rfl, .refl a, fun j h1 h2 => hg j h1 h2⟩
  | succ k ih =>
    intro a hsz hk ht hg1 hg
    unfold blBack
    refine Ok_pbind ((blSum_ok K l (k + 1) 0 a _ _ s hsz (by omega) (by omega)
      (fun i h1 h2 => ht _ _ (by omega) (by omega) (by omega)) (fun i h1 h2 => hg _ (by omega) (by omega))).mono ?_)
    rintro ⟨nu, s'⟩ rfl
    refine Ok_aUse (by blidx) (hg1 _ (by omega) (by omega)) fun g _ => Ok_aWr (by blidx) ?_
    have hm := ArrMono.set a (blGamma l (k + 1)) (g - nu)
    refine (ih _ (hm.1.trans hsz) (by omega) (fun i j h1 h2 h3 => hm.2 _ (ht i j h1 h2 h3))
      (fun j h1 h2 => hm.2 _ (hg1 j h1 h2)) fun j h1 h2 => ?_).mono ?_
    · by_cases he : j = k + 1
      · subst he; simp
      · exact hm.2 _ (hg j (by omega) h2)
    · rintro r ⟨e1, e2, e3⟩
      exact ⟨e1, hm.trans e2, e3⟩

theorem blScalars_ok (K : Kit R S n) (l : ℕ) (hl : 1 ≤ l) (a : Arr (Option R)) (s : MSt R S n)
    (hsz : a.size = (l + 1) * (4 + l + 1)) :
    Ok ((blScalars l a).run K s) fun r => r.2.hist = s.hist ∧
      (∀ k, (∀ j, 1 ≤ j → j ≤ l → k ≠ blR j) → r.2.h k = s.h k) ∧ r.1.1.size = (l + 1) * (4 + l + 1) ∧
      ∀ j, 1 ≤ j → j ≤ l → r.1.1.get (blGamma l j) ≠ none ∧ r.1.1.get (blGamma1 l j) ≠ none ∧
        (j < l → r.1.1.get (blGamma2 l j) ≠ none) := by
  unfold blScalars
  refine Ok_pbind (Ok_pfor (fun j a' s' => s'.hist = s.hist ∧
      (∀ k, (∀ j, 1 ≤ j → j ≤ l → k ≠ blR j) → s'.h k = s.h k) ∧ ArrMono a a' ∧
      (∀ i, 1 ≤ i → i < j → a'.get (blSigma l i) ≠ none ∧ a'.get (blGamma1 l i) ≠ none) ∧
      ∀ i j', 1 ≤ i → i < j' → j' < j → a'.get (blTau l i j') ≠ none) l 1 a s
    ⟨rfl, fun _ _ => rfl, .refl a, fun _ _ _ => by omega, fun _ _ _ _ _ => by omega⟩ ?_ ?_)
  · rintro j a' s' h1 h2 ⟨e1, e2, e3, e4, e5⟩
    refine (blOrth_ok K l j a' s' (e3.1.trans hsz) h1 (by omega) fun i h1 h2 => (e4 i h1 h2).1).mono ?_
    rintro ⟨b, s2⟩ ⟨f1, f2, f3, f4, f5, f6⟩
    refine ⟨f1.trans e1, fun k hk => (f2 k (hk j h1 (by omega))).trans (e2 k hk), e3.trans f3, fun i h1 h2 => ?_,
      fun i j' h3 h4 h5 => ?_⟩
    · by_cases he : i = j
      · subst he; exact ⟨f4, f5⟩
      · exact ⟨f3.2 _ (e4 i h1 (by omega)).1, f3.2 _ (e4 i h1 (by omega)).2⟩
    · by_cases he : j' = j
      · subst he; exact f6 i h3 h4
      · exact f3.2 _ (e5 i j' h3 h4 (by omega))
  · rintro b s' ⟨e1, e2, e3, e4, e5⟩
    have hb := e3.1.trans hsz
    refine Ok_aUse (by blidx) (e4 l hl (by omega)).2 fun g _ => Ok_aWr (by blidx) ?_
    have hm := ArrMono.set b (blGamma l l) g
    have hb2 : (b.set (blGamma l l) (some g)).size = (l + 1) * (4 + l + 1) := hb
    refine Ok_aUse (by blidx) (by simp) fun om _ => Ok_pbind ((blBack_ok K l s' (l - 1) _ hb2 (by omega)
      (fun i j h1 h2 h3 => hm.2 _ (e5 i j h1 h2 (by omega))) (fun j h1 h2 => hm.2 _ (e4 j h1 (by omega)).2) ?_).mono ?_)
    · intro j h1 h2
      obtain rfl : j = l := by omega
      simp
    rintro ⟨c, s2⟩ ⟨f1, f2, f3⟩
    simp only at f1 f2 f3
    rw [f1]
    have hc := f2.1.trans hb2
    have hmc := hm.trans f2
    refine Ok_pbind (Ok_pfor (fun j c' s2 => s2 = s' ∧ ArrMono c c' ∧
      ∀ i, 1 ≤ i → i < j → c'.get (blGamma2 l i) ≠ none) (l - 1) 1 c s' ⟨rfl, .refl c, fun _ _ _ => by omega⟩ ?_ ?_)
    · rintro j c' s2 h1 h2 ⟨rfl, g2, g3⟩
      have hc' := g2.1.trans hc
      refine Ok_pbind ((blSum_ok K l j 1 c' _ _ s2 hc' (by omega) (by omega)
        (fun i h1 h2 => g2.2 _ (hmc.2 _ (e5 _ _ (by omega) (by omega) (by omega))))
        (fun i h1 h2 => g2.2 _ (f3 _ (by omega) (by omega)))).mono ?_)
      rintro ⟨nu, s3⟩ rfl
      refine Ok_aUse (by blidx) (g2.2 _ (f3 _ (by omega) (by omega))) fun g _ => ?_
      have hlt : blGamma2 l j < c'.size := by blidx
      have : (aWr c' (blGamma2 l j) (some (g + nu)) : Prog R S _) = .ret (c'.set (blGamma2 l j) (some (g + nu))) := by
        simp only [aWr, Arr.wr, hlt, if_true, Prog.ofOption]
      rw [this]
      refine Ok_ret ⟨rfl, g2.trans (.set _ _ _), fun i h1 h2 => ?_⟩
      by_cases he : i = j
      · subst he; simp
      · exact (ArrMono.set _ _ _).2 _ (g3 i h1 (by omega))
    · rintro c' s2 ⟨rfl, g2, g3⟩
      exact Ok_ret ⟨e1, e2, g2.1.trans hc, fun j h1 h2 => ⟨g2.2 _ (f3 j h1 h2), g2.2 _ (hmc.2 _ (e4 j h1 (by omega)).2),
        fun h3 => g3 j h1 (by omega)⟩⟩

theorem blUpdate_ok (K : Kit R S n) (l : ℕ) (hl : 1 ≤ l) (a : Arr (Option R)) (s : MSt R S n)
    (hsz : a.size = (l + 1) * (4 + l + 1))
    (hg : ∀ j, 1 ≤ j → j ≤ l → a.get (blGamma l j) ≠ none ∧ a.get (blGamma1 l j) ≠ none ∧
        (j < l → a.get (blGamma2 l j) ≠ none)) :
    Ok ((blUpdate l a).run K s) fun r => r.2.hist = s.hist ∧
      (∀ k, k ≠ hX → k ≠ blR 0 → k ≠ blU l 0 → r.2.h k = s.h k) := by
  unfold blUpdate
  simp only [vAxpy]
  refine Ok_aUse (by blidx) (hg 1 le_rfl hl).1 fun _ _ => Ok_vop fun _ _ => Ok_aUse (by blidx) (hg l hl le_rfl).2.1
    fun _ _ => Ok_vop fun _ _ => Ok_aUse (by blidx) (hg l hl le_rfl).1 fun _ _ => Ok_vop fun _ _ =>
    Ok_pfor (fun _ _ s' => s'.hist = s.hist ∧ (∀ k, k ≠ hX → k ≠ blR 0 → k ≠ blU l 0 → s'.h k = s.h k)) (l - 1) 1 () _
      ⟨rfl, fun k h1 h2 h3 => ?_⟩ ?_ fun _ _ h => h
  · simp only [VOp.dst]
    rw [Function.update_of_ne h3, Function.update_of_ne h2, Function.update_of_ne h1]
  · rintro j _ s' h1 h2 ⟨e1, e2⟩
    have := hg j h1 (by omega)
    refine Ok_aUse (by blidx) this.1 fun _ _ => Ok_vop fun _ _ => Ok_aUse (by blidx) (this.2.2 (by omega)) fun _ _ =>
      Ok_vop fun _ _ => Ok_aUse (by blidx) this.2.1 fun _ _ => Ok_vop1 fun _ _ => ⟨e1, fun k h1 h2 h3 => ?_⟩
    simp only [VOp.dst]
    rw [Function.update_of_ne h2, Function.update_of_ne h1, Function.update_of_ne h3]
    exact e2 k h1 h2 h3

end
end Lis
