import Verif.Lemmas.Bicgstabl
import Mathlib.Algebra.BigOperators.Intervals
import Mathlib.Algebra.Module.LinearMap.Defs
import Mathlib.Algebra.Module.BigOperators
import Mathlib.Algebra.Module.Pi

namespace Lis
open Finset
variable {R S : Type} {n : ℕ}

section algebra
variable [CommRing R] {V : Type} [AddCommGroup V] [Module R V]

/-- triangular change of basis -/
theorem sum_tri (ρ rh : ℕ → V) (τ : ℕ → ℕ → R) (w : ℕ → R) (L : ℕ)
    (h : ∀ j, 1 ≤ j → j < L → ρ j = rh j + ∑ i ∈ Ico 1 j, τ i j • rh i) :
    ∑ i ∈ Ico 1 L, w i • ρ i = ∑ j ∈ Ico 1 L, (w j + ∑ i ∈ Ico (j + 1) L, τ j i * w i) • rh j := by
  have h1 : ∑ i ∈ Ico 1 L, w i • ρ i = ∑ i ∈ Ico 1 L, w i • rh i + ∑ i ∈ Ico 1 L, ∑ m ∈ Ico 1 i, (τ m i * w i) • rh m := by
    rw [← sum_add_distrib]
    refine sum_congr rfl fun i hi => ?_
    rw [mem_Ico] at hi
    rw [h i hi.1 hi.2, smul_add, smul_sum]
    congr 1
    refine sum_congr rfl fun m _ => ?_
    rw [smul_smul, mul_comm]
  rw [h1]
  simp only [add_smul, sum_smul, sum_add_distrib]
  congr 1
  exact (sum_Ico_Ico_comm' 1 L fun m i => (τ m i * w i) • rh m).symm

/-- the MR part of BiCGSTAB(l): the updates of `x` and `r[0]` fit together -/
theorem bl_mr (B : V →ₗ[R] V) (l : ℕ) (hl : 1 ≤ l) (ρ rh : ℕ → V) (τ : ℕ → ℕ → R) (g g1 g2 : ℕ → R)
    (hB : ∀ i, i < l → ρ (i + 1) = B (ρ i))
    (h : ∀ j, 1 ≤ j → j ≤ l → ρ j = rh j + ∑ i ∈ Ico 1 j, τ i j • rh i)
    (hg : ∀ j, 1 ≤ j → j ≤ l → g j = g1 j - ∑ i ∈ Ico (j + 1) (l + 1), τ j i * g i)
    (hg2 : ∀ j, 1 ≤ j → j < l → g2 j = g (j + 1) + ∑ i ∈ Ico (j + 1) l, τ j i * g (i + 1)) :
    B (g 1 • ρ 0 + ∑ j ∈ Ico 1 l, g2 j • rh j) = ∑ j ∈ Ico 1 (l + 1), g1 j • rh j := by
  have e1 : ∑ j ∈ Ico 1 l, g2 j • rh j = ∑ i ∈ Ico 1 l, g (i + 1) • ρ i := by
    rw [sum_tri ρ rh τ (fun i => g (i + 1)) l fun j h1 h2 => h j h1 (by omega)]
    refine sum_congr rfl fun j hj => ?_
    rw [mem_Ico] at hj
    rw [hg2 j hj.1 hj.2]
  have e2 : ∑ j ∈ Ico 1 (l + 1), g1 j • rh j = ∑ i ∈ Ico 1 (l + 1), g i • ρ i := by
    rw [sum_tri ρ rh τ g (l + 1) fun j h1 h2 => h j h1 (by omega)]
    refine sum_congr rfl fun j hj => ?_
    rw [mem_Ico] at hj
    rw [hg j hj.1 (by omega)]
    simp
  rw [e1, e2, map_add, map_smul, map_sum, ← hB 0 (by omega), sum_eq_sum_Ico_succ_bot (show 1 < l + 1 by omega) (fun i => g i • ρ i)]
  congr 1
  rw [← sum_Ico_add' (fun i => g i • ρ i) 1 l 1]
  refine sum_congr rfl fun i hi => ?_
  rw [mem_Ico] at hi
  rw [map_smul, ← hB i hi.2]

end algebra

/-- a function linear in the sense of `Kit.Linear`, as a linear map -/
def linMap [CommRing R] (f : (Fin n → R) → Fin n → R)
    (hf : ∀ (a : R) (x y : Fin n → R), f (fun i => x i + a * y i) = fun i => f x i + a * f y i) :
    (Fin n → R) →ₗ[R] (Fin n → R) where
  toFun := f
  map_add' x y := by
    have := hf 1 x y
    simp only [one_mul] at this
    exact this
  map_smul' a x := by
    have h0 : f 0 = 0 := by
      have := hf (-1) 0 0
      simp only [Pi.zero_apply, mul_zero, add_zero] at this
      funext i
      have := congrFun this i
      rw [show (fun _ : Fin n => (0 : R)) = 0 from rfl] at this
      rw [this]; simp
    have := hf a 0 x
    simp only [Pi.zero_apply, zero_add, h0] at this
    exact this

section
variable [CommRing R] [Div R] [Star R] [DecidableEq R] [RealOps S]

/-- values in the scalar block -/
def bt (l : ℕ) (a : Arr (Option R)) (i j : ℕ) : R := (a.get (blTau l i j)).getD 0
def bg (l : ℕ) (a : Arr (Option R)) (j : ℕ) : R := (a.get (blGamma l j)).getD 0
def bg1 (l : ℕ) (a : Arr (Option R)) (j : ℕ) : R := (a.get (blGamma1 l j)).getD 0
def bg2 (l : ℕ) (a : Arr (Option R)) (j : ℕ) : R := (a.get (blGamma2 l j)).getD 0

omit [CommRing R] [Div R] [Star R] [DecidableEq R] in
theorem blTau_inj {l i j i' j' : ℕ} (hj : j ≤ l) (hj' : j' ≤ l) (h : blTau l i j = blTau l i' j') : i = i' ∧ j = j' := by
  simp only [blTau] at h
  have e : j = j' := by
    have := congrArg (· % (l + 1)) h
    simpa [Nat.add_mod, Nat.mod_eq_of_lt (show j < l + 1 by omega), Nat.mod_eq_of_lt (show j' < l + 1 by omega)] using this
  subst e
  exact ⟨Nat.eq_of_mul_eq_mul_right (Nat.succ_pos l) (show i * (l + 1) = i' * (l + 1) by omega), rfl⟩

theorem blSum_res (K : Kit R S n) (l j sh : ℕ) (a : Arr (Option R)) (k lo : ℕ) (s : MSt R S n)
    (hsz : a.size = (l + 1) * (4 + l + 1)) (hj : j ≤ l) (hlo : k = 0 ∨ lo + k + sh ≤ l + 1)
    (ht : ∀ i, lo ≤ i → i < lo + k → a.get (blTau l j i) ≠ none)
    (hg : ∀ i, lo ≤ i → i < lo + k → a.get (blGamma l (i + sh)) ≠ none) :
    Ok ((blSum l j sh a k lo).run K s) fun r => r.2 = s ∧
      r.1 = ∑ i ∈ Ico lo (lo + k), bt l a j i * bg l a (i + sh) := by
  unfold blSum
  refine Ok_pfor (fun i nu s' => lo ≤ i ∧ s' = s ∧ nu = ∑ i' ∈ Ico lo i, bt l a j i' * bg l a (i' + sh)) k lo 0 s
    ⟨le_rfl, rfl, by simp⟩ ?_ (fun _ _ h => h.2)
  rintro i nu s' h1 h2 ⟨-, rfl, rfl⟩
  refine Ok_aUse (by blidx) (ht i h1 h2) fun x hx => Ok_aUse (by blidx) (hg i h1 h2) fun g hg => Ok_ret ⟨by omega, rfl, ?_⟩
  rw [sum_Ico_succ_top h1]
  simp only [bt, bg, hx, hg, Option.getD_some]

theorem blOrth_res (K : Kit R S n) (l j : ℕ) (a : Arr (Option R)) (s : MSt R S n)
    (hsz : a.size = (l + 1) * (4 + l + 1)) (h1 : 1 ≤ j) (hj : j ≤ l)
    (hs : ∀ i, 1 ≤ i → i < j → a.get (blSigma l i) ≠ none) :
    Ok ((blOrth l j a).run K s) fun r => r.2.hist = s.hist ∧ (∀ k, k ≠ blR j → r.2.h k = s.h k) ∧
      r.1.size = a.size ∧
      (∀ k, (∀ i, 1 ≤ i → i < j → k ≠ blTau l i j) → k ≠ blSigma l j → k ≠ blGamma1 l j → r.1.get k = a.get k) ∧
      s.h (blR j) = r.2.h (blR j) + ∑ i ∈ Ico 1 j, bt l r.1 i j • s.h (blR i) := by
  unfold blOrth
  refine Ok_pbind (Ok_pfor (fun i a' s' => 1 ≤ i ∧ s'.hist = s.hist ∧ (∀ k, k ≠ blR j → s'.h k = s.h k) ∧
      a'.size = a.size ∧ (∀ k, (∀ i, 1 ≤ i → i < j → k ≠ blTau l i j) → a'.get k = a.get k) ∧
      s.h (blR j) = s'.h (blR j) + ∑ i' ∈ Ico 1 i, bt l a' i' j • s.h (blR i')) (j - 1) 1 a s
    ⟨le_rfl, rfl, fun _ _ => rfl, rfl, fun _ _ => rfl, by simp⟩ ?_ ?_)
  · rintro i a' s' hi1 hi2 ⟨-, e1, e2, e3, e4, e5⟩
    have hsz' := e3.trans hsz
    refine Ok_red fun nu _ => Ok_aUse (by blidx) ?_ fun si _ => Ok_aWr (by blidx)
      (Ok_vop fun w hw => Ok_ret ⟨by omega, e1, fun k hk => ?_, e3, fun k hk => ?_, ?_⟩)
    · rw [e4 _ fun i' h1 h2 => ?_]
      · exact hs i hi1 (by omega)
      · have := bl_bound (l := l) (i := i') (j := j) (by omega) (by omega)
        simp only [blSigma, blTau]; omega
    · simp only [VOp.dst]
      rw [Function.update_of_ne hk]; exact e2 k hk
    · rw [Arr.set_get_ne _ _ (hk i hi1 (by omega))]
      exact e4 k hk
    · simp only [VOp.dst, Function.update_self, VOp.val] at hw ⊢
      rw [sum_Ico_succ_top hi1]
      have e : ∀ i', i' < i → bt l (a'.set (blTau l i j) (some (nu / si))) i' j = bt l a' i' j := by
        intro i' hi'
        unfold bt
        rw [Arr.set_get_ne]
        intro h
        exact absurd (blTau_inj hj hj h).1 (by omega)
      rw [sum_congr rfl fun i' hi' => by rw [e i' (mem_Ico.1 hi').2]]
      have e' : bt l (a'.set (blTau l i j) (some (nu / si))) i j = nu / si := by simp [bt]
      rw [e', hw, e5, e2 (blR i) (by simp only [blR, wk]; omega)]
      funext x
      simp only [Pi.add_apply, Pi.smul_apply, smul_eq_mul]
      ring
  · rintro a' s' ⟨-, e1, e2, e3, e4, e5⟩
    have hsz' := e3.trans hsz
    refine Ok_red fun sj _ => Ok_aWr (by blidx) (Ok_red fun nu _ => Ok_aUse ?_ (by simp) fun x _ => ?_)
    · simp only [Arr.set_size]; blidx
    · have hsz'' : (a'.set (blSigma l j) (some sj)).size = (l + 1) * (4 + l + 1) := hsz'
      have hlt : blGamma1 l j < (a'.set (blSigma l j) (some sj)).size := by blidx
      have : (aWr (a'.set (blSigma l j) (some sj)) (blGamma1 l j) (some (nu / x)) : Prog R S _) =
          .ret ((a'.set (blSigma l j) (some sj)).set (blGamma1 l j) (some (nu / x))) := by
        simp only [aWr, Arr.wr, hlt, if_true, Prog.ofOption]
      rw [this]
      refine Ok_ret ⟨e1, e2, e3, fun k h1 h2 h3 => ?_, ?_⟩
      · rw [Arr.set_get_ne _ _ h3, Arr.set_get_ne _ _ h2]; exact e4 k h1
      · rw [show 1 + (j - 1) = j by omega] at e5
        rw [e5]
        congr 1
        refine sum_congr rfl fun i hi => ?_
        rw [mem_Ico] at hi
        congr 1
        have := bl_bound (l := l) (i := i) (j := j) (by omega) (by omega)
        unfold bt
        rw [Arr.set_get_ne _ _ (by simp only [blGamma1, blTau]; omega),
          Arr.set_get_ne _ _ (by simp only [blSigma, blTau]; omega)]

/-- `blBack` writes only `gamma[1..k]` -/
theorem blBack_res (K : Kit R S n) (l : ℕ) (s : MSt R S n) : ∀ (k : ℕ) (a : Arr (Option R)),
    a.size = (l + 1) * (4 + l + 1) → k < l →
    (∀ i j, 1 ≤ i → i < j → j ≤ l → a.get (blTau l i j) ≠ none) →
    (∀ j, 1 ≤ j → j ≤ l → a.get (blGamma1 l j) ≠ none) →
    (∀ j, k < j → j ≤ l → a.get (blGamma l j) ≠ none) →
    (∀ j, k < j → j ≤ l → bg l a j = bg1 l a j - ∑ i ∈ Ico (j + 1) (l + 1), bt l a j i * bg l a i) →
    Ok ((blBack l k a).run K s) fun r => r.2 = s ∧
      (∀ m, (∀ j, 1 ≤ j → j ≤ l → m ≠ blGamma l j) → r.1.get m = a.get m) ∧
      ∀ j, 1 ≤ j → j ≤ l → bg l r.1 j = bg1 l a j - ∑ i ∈ Ico (j + 1) (l + 1), bt l a j i * bg l r.1 i := by
  intro k
  induction k with
  | zero =>
    intro a hsz hk ht hg1 hg he
    exact Ok_ret ⟨rfl, fun _ _ => rfl, fun j h1 h2 => he j h1 h2⟩
  | succ k ih =>
    intro a hsz hk ht hg1 hg he
    unfold blBack
    refine Ok_pbind ((blSum_res K l (k + 1) 0 a _ _ s hsz (by omega) (by omega)
      (fun i h1 h2 => ht _ _ (by omega) (by omega) (by omega)) (fun i h1 h2 => hg _ (by omega) (by omega))).mono ?_)
    rintro ⟨nu, s'⟩ ⟨hs, hnu⟩
    simp only at hs hnu
    subst hs
    refine Ok_aUse (by blidx) (hg1 _ (by omega) (by omega)) fun g hgv => Ok_aWr (by blidx) ?_
    have hm := ArrMono.set a (blGamma l (k + 1)) (g - nu)
    set a' := a.set (blGamma l (k + 1)) (some (g - nu)) with ha'
    have ht' : ∀ i j, i ≤ l → j ≤ l → bt l a' i j = bt l a i j := by
      intro i j hi hj
      have := bl_bound hi hj
      unfold bt
      rw [ha', Arr.set_get_ne _ _ (by simp only [blGamma, blTau]; omega)]
    have hg1' : ∀ j, 1 ≤ j → bg1 l a' j = bg1 l a j := by
      intro j hj
      unfold bg1
      rw [ha', Arr.set_get_ne _ _ (by simp only [blGamma, blGamma1]; omega)]
    have hg' : ∀ j, j ≠ k + 1 → bg l a' j = bg l a j := by
      intro j hj
      unfold bg
      rw [ha', Arr.set_get_ne _ _ (by simp only [blGamma]; omega)]
    refine (ih a' (hm.1.trans hsz) (by omega) (fun i j h1 h2 h3 => hm.2 _ (ht i j h1 h2 h3))
      (fun j h1 h2 => hm.2 _ (hg1 j h1 h2)) (fun j h1 h2 => ?_) fun j h1 h2 => ?_).mono ?_
    · by_cases he : j = k + 1
      · subst he; simp [ha']
      · exact hm.2 _ (hg j (by omega) h2)
    · have hsum : ∑ i ∈ Ico (j + 1) (l + 1), bt l a' j i * bg l a' i = ∑ i ∈ Ico (j + 1) (l + 1), bt l a j i * bg l a i := by
        refine sum_congr rfl fun i hi => ?_
        rw [mem_Ico] at hi
        rw [ht' j i (by omega) (by omega), hg' i (by omega)]
      rw [hg1' j (by omega), hsum]
      by_cases hjk : j = k + 1
      · subst hjk
        have e1 : bg l a' (k + 1) = g - nu := by simp [bg, ha']
        have e2 : bg1 l a (k + 1) = g := by simp [bg1, hgv]
        rw [e1, e2, hnu, show k + 2 + (l - (k + 1)) = l + 1 by omega]
        rfl
      · rw [hg' j hjk]
        exact he j (by omega) h2
    · rintro r ⟨e1, e2, e3⟩
      refine ⟨e1, fun m hmm => ?_, fun j h1 h2 => ?_⟩
      · rw [e2 m hmm, ha', Arr.set_get_ne _ _ (hmm (k + 1) (by omega) (by omega))]
      · rw [e3 j h1 h2, hg1' j h1]
        congr 1
        refine sum_congr rfl fun i hi => ?_
        rw [mem_Ico] at hi
        rw [ht' j i h2 (by omega)]


theorem blScalars_res (K : Kit R S n) (l : ℕ) (hl : 1 ≤ l) (a : Arr (Option R)) (s : MSt R S n)
    (hsz : a.size = (l + 1) * (4 + l + 1)) :
    Ok ((blScalars l a).run K s) fun r =>
      (∀ j, 1 ≤ j → j ≤ l → s.h (blR j) = r.2.h (blR j) + ∑ i ∈ Ico 1 j, bt l r.1.1 i j • r.2.h (blR i)) ∧
      (∀ j, 1 ≤ j → j ≤ l → bg l r.1.1 j = bg1 l r.1.1 j - ∑ i ∈ Ico (j + 1) (l + 1), bt l r.1.1 j i * bg l r.1.1 i) ∧
      (∀ j, 1 ≤ j → j < l → bg2 l r.1.1 j = bg l r.1.1 (j + 1) + ∑ i ∈ Ico (j + 1) l, bt l r.1.1 j i * bg l r.1.1 (i + 1)) := by
  unfold blScalars
  refine Ok_pbind (Ok_pfor (fun j a' s' => 1 ≤ j ∧ ArrMono a a' ∧
      (∀ i, 1 ≤ i → i < j → a'.get (blSigma l i) ≠ none ∧ a'.get (blGamma1 l i) ≠ none) ∧
      (∀ i j', 1 ≤ i → i < j' → j' < j → a'.get (blTau l i j') ≠ none) ∧
      (∀ i, j ≤ i → s'.h (blR i) = s.h (blR i)) ∧
      ∀ j', 1 ≤ j' → j' < j → s.h (blR j') = s'.h (blR j') + ∑ i ∈ Ico 1 j', bt l a' i j' • s'.h (blR i)) l 1 a s
    ⟨le_rfl, .refl a, fun _ _ _ => by omega, fun _ _ _ _ _ => by omega, fun _ _ => rfl, fun _ _ _ => by omega⟩ ?_ ?_)
  · rintro j a' s' h1 h2 ⟨-, e3, e4, e5, e6, e7⟩
    have hsa := e3.1.trans hsz
    refine ((blOrth_ok K l j a' s' hsa h1 (by omega) fun i h1 h2 => (e4 i h1 h2).1).conj
      (blOrth_res K l j a' s' hsa h1 (by omega) fun i h1 h2 => (e4 i h1 h2).1)).mono ?_
    rintro ⟨b, s2⟩ ⟨⟨f1, f2, f3, f4, f5, f6⟩, g1, g2, g3, g4, g5⟩
    simp only at f1 f2 f3 f4 f5 f6 g1 g2 g3 g4 g5 ⊢
    have hR : ∀ i, i ≠ j → s2.h (blR i) = s'.h (blR i) := fun i hi => f2 _ (by simp only [blR, wk]; omega)
    refine ⟨by omega, e3.trans f3, fun i h1 h2 => ?_, fun i j' h3 h4 h5 => ?_, fun i hi => ?_, fun j' h3 h4 => ?_⟩
    · by_cases he : i = j
      · subst he; exact ⟨f4, f5⟩
      · exact ⟨f3.2 _ (e4 i h1 (by omega)).1, f3.2 _ (e4 i h1 (by omega)).2⟩
    · by_cases he : j' = j
      · subst he; exact f6 i h3 h4
      · exact f3.2 _ (e5 i j' h3 h4 (by omega))
    · rw [hR i (by omega)]; exact e6 i (by omega)
    · by_cases he : j' = j
      · subst he
        rw [← e6 j' le_rfl, g5]
        congr 1
        refine sum_congr rfl fun i hi => ?_
        rw [mem_Ico] at hi
        rw [hR i (by omega)]
      · rw [e7 j' h3 (by omega), hR j' he]
        congr 1
        refine sum_congr rfl fun i hi => ?_
        rw [mem_Ico] at hi
        rw [hR i (by omega)]
        congr 1
        unfold bt
        have hb := bl_bound (l := l) (i := i) (j := j') (by omega) (by omega)
        rw [g4 _ (fun i' _ _ hh => he (blTau_inj (by omega) (by omega) hh).2) (by simp only [blSigma, blTau]; omega)
          (by simp only [blGamma1, blTau]; omega)]
  · rintro b s' ⟨-, e3, e4, e5, e6, e7⟩
    have hb := e3.1.trans hsz
    refine Ok_aUse (by blidx) (e4 l hl (by omega)).2 fun g hgv => Ok_aWr (by blidx) ?_
    have hm := ArrMono.set b (blGamma l l) g
    have hb2 : (b.set (blGamma l l) (some g)).size = (l + 1) * (4 + l + 1) := hb
    have hgl : ∀ j, l - 1 < j → j ≤ l → (b.set (blGamma l l) (some g)).get (blGamma l j) ≠ none := by
      intro j h1 h2
      obtain rfl : j = l := by omega
      simp
    have ht' : ∀ i j, i ≤ l → j ≤ l → bt l (b.set (blGamma l l) (some g)) i j = bt l b i j := by
      intro i j hi hj
      have := bl_bound hi hj
      unfold bt
      rw [Arr.set_get_ne _ _ (by simp only [blGamma, blTau]; omega)]
    have hg1' : bg1 l (b.set (blGamma l l) (some g)) l = g := by
      unfold bg1
      rw [Arr.set_get_ne _ _ (by simp only [blGamma, blGamma1]; omega), hgv]; rfl
    refine Ok_aUse (by blidx) (by simp) fun om _ => Ok_pbind (((blBack_ok K l s' (l - 1) _ hb2 (by omega)
      (fun i j h1 h2 h3 => hm.2 _ (e5 i j h1 h2 (by omega))) (fun j h1 h2 => hm.2 _ (e4 j h1 (by omega)).2) hgl).conj
      (blBack_res K l s' (l - 1) _ hb2 (by omega)
      (fun i j h1 h2 h3 => hm.2 _ (e5 i j h1 h2 (by omega))) (fun j h1 h2 => hm.2 _ (e4 j h1 (by omega)).2) hgl ?_)).mono ?_)
    · intro j h1 h2
      obtain rfl : j = l := by omega
      rw [hg1']
      simp [bg]
    rintro ⟨c, s2⟩ ⟨⟨f1, f2, f3⟩, -, f4, f5⟩
    simp only at f1 f2 f3 f4 f5
    rw [f1]
    have hc := f2.1.trans hb2
    have hmc := hm.trans f2
    have hct : ∀ i j, i ≤ l → j ≤ l → bt l c i j = bt l b i j := by
      intro i j hi hj
      rw [← ht' i j hi hj]
      have := bl_bound hi hj
      unfold bt
      rw [f4 _ (by intro j' _ _; simp only [blGamma, blTau]; omega)]
    have hcg1 : ∀ j, 1 ≤ j → bg1 l (b.set (blGamma l l) (some g)) j = bg1 l c j := by
      intro j hj
      unfold bg1
      rw [f4 _ (by intro j' _ _; simp only [blGamma, blGamma1]; omega)]
    refine Ok_pbind (Ok_pfor (fun j c' s2 => 1 ≤ j ∧ s2 = s' ∧ ArrMono c c' ∧
      (∀ m, (∀ j, 1 ≤ j → j < l → m ≠ blGamma2 l j) → c'.get m = c.get m) ∧
      ∀ i, 1 ≤ i → i < j → bg2 l c' i = bg l c (i + 1) + ∑ m ∈ Ico (i + 1) l, bt l c i m * bg l c (m + 1)) (l - 1) 1 c s'
        ⟨le_rfl, rfl, .refl c, fun _ _ => rfl, fun _ _ _ => by omega⟩ ?_ ?_)
    · rintro j c' s2 h1 h2 ⟨-, rfl, g2, g3, g4⟩
      have hc' := g2.1.trans hc
      refine Ok_pbind ((blSum_res K l j 1 c' _ _ s2 hc' (by omega) (by omega)
        (fun i h1 h2 => g2.2 _ (hmc.2 _ (e5 _ _ (by omega) (by omega) (by omega))))
        (fun i h1 h2 => g2.2 _ (f3 _ (by omega) (by omega)))).mono ?_)
      rintro ⟨nu, s3⟩ ⟨hs3, hnu⟩
      simp only at hs3 hnu
      subst hs3
      refine Ok_aUse (by blidx) (g2.2 _ (f3 _ (by omega) (by omega))) fun g hgv => ?_
      have hlt : blGamma2 l j < c'.size := by blidx
      have : (aWr c' (blGamma2 l j) (some (g + nu)) : Prog R S _) = .ret (c'.set (blGamma2 l j) (some (g + nu))) := by
        simp only [aWr, Arr.wr, hlt, if_true, Prog.ofOption]
      rw [this]
      have hcg : ∀ i, i ≤ l → bg l c' i = bg l c i := fun i hi => by
        unfold bg; rw [g3 _ (by intro j' _ _; simp only [blGamma, blGamma2]; omega)]
      refine Ok_ret ⟨by omega, rfl, g2.trans (.set _ _ _), fun m hmm => ?_, fun i h1 h2 => ?_⟩
      · rw [Arr.set_get_ne _ _ (hmm j h1 (by omega))]; exact g3 m hmm
      by_cases he : i = j
      · subst he
        have e1 : bg2 l (c'.set (blGamma2 l i) (some (g + nu))) i = g + nu := by simp [bg2]
        have e2 : bg l c (i + 1) = g := by rw [← hcg _ (by omega)]; unfold bg; rw [hgv]; rfl
        rw [e1, e2, hnu, show i + 1 + (l - 1 - i) = l by omega]
        congr 1
        refine sum_congr rfl fun m hm => ?_
        rw [mem_Ico] at hm
        rw [hcg _ (by omega)]
        congr 1
        have hbd := bl_bound (l := l) (i := i) (j := m) (by omega) (by omega)
        unfold bt
        rw [g3 _ (by intro j' _ _; simp only [blTau, blGamma2]; omega)]
      · rw [← g4 i h1 (by omega)]
        unfold bg2
        rw [Arr.set_get_ne _ _ (by simp only [blGamma2]; omega)]
    · rintro c' s2 ⟨-, rfl, g2, g3, g4⟩
      have hcg : ∀ i, i ≤ l → bg l c' i = bg l c i := fun i hi => by
        unfold bg; rw [g3 _ (by intro j' _ _; simp only [blGamma, blGamma2]; omega)]
      have hcg1' : ∀ i, i ≤ l → bg1 l c' i = bg1 l c i := fun i hi => by
        unfold bg1; rw [g3 _ (by intro j' _ _; simp only [blGamma1, blGamma2]; omega)]
      have hct' : ∀ i j, i ≤ l → j ≤ l → bt l c' i j = bt l c i j := fun i j hi hj => by
        have := bl_bound hi hj
        unfold bt; rw [g3 _ (by intro j' _ _; simp only [blTau, blGamma2]; omega)]
      refine Ok_ret ⟨fun j h1 h2 => ?_, fun j h1 h2 => ?_, fun j h1 h2 => ?_⟩
      · rw [e7 j h1 (by omega)]
        congr 1
        refine sum_congr rfl fun i hi => ?_
        rw [mem_Ico] at hi
        rw [hct' i j (by omega) h2, hct i j (by omega) h2]
      · rw [hcg j h2, hcg1' j h2, f5 j h1 h2, hcg1 j h1]
        congr 1
        refine sum_congr rfl fun i hi => ?_
        rw [mem_Ico] at hi
        rw [hct' j i h2 (by omega), hcg i (by omega), ht' j i h2 (by omega), hct j i h2 (by omega)]
      · rw [g4 j h1 (by omega), hcg (j + 1) (by omega)]
        congr 1
        refine sum_congr rfl fun i hi => ?_
        rw [mem_Ico] at hi
        rw [hct' j i (by omega) (by omega), hcg (i + 1) (by omega)]

theorem blUpdate_res (K : Kit R S n) (l : ℕ) (hl : 1 ≤ l) (a : Arr (Option R)) (s : MSt R S n)
    (hsz : a.size = (l + 1) * (4 + l + 1))
    (hg : ∀ j, 1 ≤ j → j ≤ l → a.get (blGamma l j) ≠ none ∧ a.get (blGamma1 l j) ≠ none ∧
        (j < l → a.get (blGamma2 l j) ≠ none)) :
    Ok ((blUpdate l a).run K s) fun r =>
      r.2.h hX = s.h hX + (bg l a 1 • s.h (blR 0) + ∑ j ∈ Ico 1 l, bg2 l a j • s.h (blR j)) ∧
      r.2.h (blR 0) = s.h (blR 0) - ∑ j ∈ Ico 1 (l + 1), bg1 l a j • s.h (blR j) := by
  unfold blUpdate
  simp only [vAxpy]
  refine Ok_aUse (by blidx) (hg 1 le_rfl hl).1 fun g1 hg1 => Ok_vop fun w1 h1 => Ok_aUse (by blidx) (hg l hl le_rfl).2.1
    fun g2 hg2 => Ok_vop fun w2 h2 => Ok_aUse (by blidx) (hg l hl le_rfl).1 fun _ _ => Ok_vop fun w3 h3 =>
    Ok_pfor (fun j _ s' => 1 ≤ j ∧ (∀ i, 1 ≤ i → i ≤ l → s'.h (blR i) = s.h (blR i)) ∧
      s'.h hX = s.h hX + (bg l a 1 • s.h (blR 0) + ∑ i ∈ Ico 1 j, bg2 l a i • s.h (blR i)) ∧
      s'.h (blR 0) = s.h (blR 0) - (∑ i ∈ Ico 1 j, bg1 l a i • s.h (blR i) + bg1 l a l • s.h (blR l))) (l - 1) 1 () _
      ⟨le_rfl, fun i h1 h2 => ?_, ?_, ?_⟩ ?_ ?_
  · simp only [VOp.dst]
    rw [Function.update_of_ne (by simp only [blU, blR, wk]; omega), Function.update_of_ne (by simp only [blR, wk]; omega),
      Function.update_of_ne (by simp only [blR, wk, hX]; omega)]
  · simp only [VOp.dst, VOp.val] at h1 ⊢
    rw [Function.update_of_ne (by simp only [blU, hX, wk]; omega), Function.update_of_ne (by decide),
      Function.update_self, h1, show bg l a 1 = g1 by simp [bg, hg1]]
    funext x
    simp
  · simp only [VOp.dst, VOp.val] at h2 ⊢
    rw [Function.update_of_ne (by simp only [blU, blR, wk]; omega), Function.update_self, h2,
      Function.update_of_ne (show blR 0 ≠ hX by decide), Function.update_of_ne (show blR l ≠ hX by simp only [blR, hX, wk]; omega),
      show bg1 l a l = g2 by simp [bg1, hg2]]
    funext x
    simp; ring
  · rintro j _ s' h1 h2 ⟨-, e1, e2, e3⟩
    have := hg j h1 (by omega)
    refine Ok_aUse (by blidx) this.1 fun _ _ => Ok_vop fun w1 k1 => Ok_aUse (by blidx) (this.2.2 (by omega)) fun c2 hc2 =>
      Ok_vop fun w2 k2 => Ok_aUse (by blidx) this.2.1 fun c1 hc1 => Ok_vop1 fun w3 k3 => ⟨by omega, fun i h1 h2 => ?_, ?_, ?_⟩
    · simp only [VOp.dst]
      rw [Function.update_of_ne (by simp only [blR, wk]; omega), Function.update_of_ne (by simp only [blR, hX, wk]; omega),
        Function.update_of_ne (by simp only [blU, blR, wk]; omega)]
      exact e1 i h1 h2
    · simp only [VOp.dst, VOp.val] at k2 ⊢
      rw [Function.update_of_ne (by decide), Function.update_self, k2,
        Function.update_of_ne (show hX ≠ blU l 0 by simp only [blU, hX, wk]; omega),
        Function.update_of_ne (show blR j ≠ blU l 0 by simp only [blU, blR, wk]; omega), e2, e1 j h1 (by omega),
        show c2 = bg2 l a j by simp [bg2, hc2], sum_Ico_succ_top h1]
      funext x
      simp only [Pi.add_apply, Pi.smul_apply, smul_eq_mul]
      ring
    · simp only [VOp.dst, VOp.val] at k3 ⊢
      rw [Function.update_self, k3, Function.update_of_ne (show blR 0 ≠ hX by decide),
        Function.update_of_ne (show blR 0 ≠ blU l 0 by simp only [blU, blR, wk]; omega),
        Function.update_of_ne (show blR j ≠ hX by simp only [blR, hX, wk]; omega),
        Function.update_of_ne (show blR j ≠ blU l 0 by simp only [blU, blR, wk]; omega), e3, e1 j h1 (by omega),
        show c1 = bg1 l a j by simp [bg1, hc1], sum_Ico_succ_top h1]
      funext x
      simp only [Pi.add_apply, Pi.sub_apply, Pi.smul_apply, smul_eq_mul]
      ring
  · rintro _ s' ⟨-, -, e2, e3⟩
    rw [show 1 + (l - 1) = l by omega] at e2 e3
    refine ⟨e2, ?_⟩
    rw [e3, sum_Ico_succ_top hl]

end
end Lis
