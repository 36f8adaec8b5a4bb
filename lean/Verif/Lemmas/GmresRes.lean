import Verif.Lemmas.Gmres
import Verif.Lemmas.GmresAlg
import Verif.Lemmas.BicgstablRes
import Verif.Spec.SolverDoc
import Mathlib.Tactic.Abel
import Mathlib.Tactic.FieldSimp
import Mathlib.Analysis.Real.Sqrt
import Mathlib.Data.Real.Star
import Mathlib.LinearAlgebra.Matrix.DotProduct

/-! lis_gmres over the reals: what the arrays mean -/

namespace Lis
open Finset
variable {n : ℕ}

/-- `sqrt`, `fabs` of the real numbers -/
noncomputable def gmReal (tiny : ℝ) : GmFns ℝ ℝ := ⟨id, Real.sqrt, abs, tiny⟩

/-- the inner product and the norm of a real kit are the usual ones -/
structure Kit.Euclid (K : Kit ℝ ℝ n) : Prop where
  dot : ∀ x y, K.dot x y = x ⬝ᵥ y
  nrm2 : ∀ x, K.nrm2 x = Real.sqrt (x ⬝ᵥ x)

/-- values in the scalar block -/
def gh (m : ℕ) (a : Arr (Option ℝ)) (k j : ℕ) : ℝ := (a.get (gmH m k j)).getD 0
def gc (m : ℕ) (a : Arr (Option ℝ)) (j : ℕ) : ℝ := (a.get (gmCs m j)).getD 0
def gs (m : ℕ) (a : Arr (Option ℝ)) (j : ℕ) : ℝ := (a.get (gmSn m j)).getD 0

theorem dot_self_nonneg (x : Fin n → ℝ) : 0 ≤ x ⬝ᵥ x := Finset.sum_nonneg fun _ _ => mul_self_nonneg _

theorem Euclid_zero {K : Kit ℝ ℝ n} (hK : K.Euclid) {x : Fin n → ℝ} (h : K.nrm2 x = 0) : x = 0 := by
  rw [hK.nrm2, Real.sqrt_eq_zero (dot_self_nonneg x)] at h
  exact dotProduct_self_eq_zero.1 h

theorem Euclid_smul {K : Kit ℝ ℝ n} (hK : K.Euclid) (c : ℝ) (x : Fin n → ℝ) : K.nrm2 (c • x) = |c| * K.nrm2 x := by
  rw [hK.nrm2, hK.nrm2, smul_dotProduct, dotProduct_smul, smul_smul, smul_eq_mul, Real.sqrt_mul (mul_self_nonneg c),
    Real.sqrt_mul_self_eq_abs]

theorem Euclid_sq {K : Kit ℝ ℝ n} (hK : K.Euclid) (x : Fin n → ℝ) : K.nrm2 x * K.nrm2 x = x ⬝ᵥ x := by
  rw [hK.nrm2, Real.mul_self_sqrt (dot_self_nonneg x)]

theorem gh_set_ne {m : ℕ} {a : Arr (Option ℝ)} {k j i : ℕ} {v : Option ℝ} (h : gmH m k j ≠ i) :
    gh m (a.set i v) k j = gh m a k j := by
  unfold gh; rw [Arr.set_get_ne _ _ h]

theorem gmH_ne {m k k' j j' : ℕ} (hk : k ≤ m) (hk' : k' ≤ m) (h : k ≠ k' ∨ j ≠ j') : gmH m k j ≠ gmH m k' j' := by
  intro e
  have := gmH_inj hk hk' e
  omega

theorem gmArnoldi_res (tiny : ℝ) (K : Kit ℝ ℝ n) (hK : K.Euclid) (m : ℕ) (v : ℕ → ℕ) (hv : Function.Injective v)
    (ii : ℕ) (hi : ii < m) (a : Arr (Option ℝ)) (s : MSt ℝ ℝ n) (hsz : a.size = (m + 1 + 1) * (m + 1 + 2))
    (ho : Orth (fun k => s.h (v k)) ii) :
    Ok ((gmArnoldi (gmReal tiny) m v ii a).run K s) fun r =>
      s.h (v (ii + 1)) = ∑ k ∈ range (ii + 2), gh m r.1 k ii • r.2.h (v k) ∧
      (gh m r.1 (ii + 1) ii ≠ 0 → Orth (fun k => r.2.h (v k)) (ii + 1)) := by
  unfold gmArnoldi
  simp only [vDot, vAxpy, vNrm2, vScale]
  have hne : ∀ k, k ≤ ii → v k ≠ v (ii + 1) := fun k hk h => by have := hv h; omega
  refine Ok_pbind (Ok_pfor (fun k a' s' => k ≤ ii + 1 ∧ a'.size = a.size ∧ (∀ k, k ≠ v (ii + 1) → s'.h k = s.h k) ∧
      s.h (v (ii + 1)) = s'.h (v (ii + 1)) + ∑ k' ∈ range k, gh m a' k' ii • s.h (v k') ∧
      ∀ k', k' < k → s'.h (v (ii + 1)) ⬝ᵥ s.h (v k') = 0)
    (ii + 1) 0 a s ⟨by omega, rfl, fun _ _ => rfl, by simp, fun _ _ => by omega⟩ ?_ ?_)
  · rintro k a' s' - hk ⟨-, e1, e2, e3, e4⟩
    have hsz' := e1.trans hsz
    refine Ok_red fun t ht => Ok_aWr (by gmidx) (Ok_vop fun w hw => Ok_ret ⟨by omega, e1, fun k' hk' => ?_, ?_, fun k' hk' => ?_⟩)
    · simp only [VOp.dst]; rw [Function.update_of_ne hk']; exact e2 k' hk'
    · simp only [VOp.dst, Function.update_self, VOp.val] at hw ⊢
      rw [sum_range_succ, sum_congr rfl (g := fun k' => gh m a' k' ii • s.h (v k')) fun k' hk' => by
        rw [gh_set_ne (gmH_ne (by have := mem_range.1 hk'; omega) (by omega) (.inl (by have := mem_range.1 hk'; omega)))]]
      have e : gh m (a'.set (gmH m k ii) (some t)) k ii = t := by simp [gh]
      rw [e, hw, e3, e2 (v k) (hne k (by omega))]
      funext x
      simp only [Pi.add_apply, Pi.smul_apply, smul_eq_mul]
      ring
    · simp only [VOp.dst, Function.update_self, VOp.val, VRed.run] at hw ht ⊢
      rw [hK.dot, e2 (v k) (hne k (by omega))] at ht
      rw [e2 (v k) (hne k (by omega))] at hw
      have hw' : w = s'.h (v (ii + 1)) + (-t) • s.h (v k) := by rw [hw]; rfl
      have hok : s.h (v k) ⬝ᵥ s.h (v k') = if k = k' then 1 else 0 := ho k k' (by omega) (by omega)
      rw [hw', add_dotProduct, smul_dotProduct, hok]
      by_cases he : k' = k
      · subst he
        rw [← ht, if_pos rfl]; simp
      · rw [e4 k' (by omega), if_neg (by omega)]; simp
  · rintro a' s' ⟨-, e1, e2, e3, e4⟩
    have hsz' := e1.trans hsz
    rw [Nat.zero_add] at e3 e4
    refine Ok_norm fun t ht => Ok_aWr (by gmidx) (Ok_vop fun w hw => Ok_ret ?_)
    simp only [VOp.dst, VOp.val, VNorm.run, gmReal, id] at hw ht ⊢
    have hw' : w = (1 / t) • s'.h (v (ii + 1)) := by rw [hw]; funext x; simp [mul_comm]
    have hg : gh m (a'.set (gmH m (ii + 1) ii) (some t)) (ii + 1) ii = t := by simp [gh]
    have hf : ∀ k, k ≤ ii → Function.update s'.h (v (ii + 1)) w (v k) = s.h (v k) := fun k hk => by
      rw [Function.update_of_ne (hne k hk), e2 _ (hne k hk)]
    refine ⟨?_, fun h => ?_⟩
    · rw [sum_range_succ, hg, Function.update_self, sum_congr rfl (g := fun k' => gh m a' k' ii • s.h (v k')) fun k' hk' => by
        rw [gh_set_ne (gmH_ne (by have := mem_range.1 hk'; omega) (by omega) (.inl (by have := mem_range.1 hk'; omega))),
          hf k' (by have := mem_range.1 hk'; omega)]]
      rw [e3, add_comm]
      congr 1
      rw [hw', smul_smul]
      by_cases h0 : t = 0
      · have := Euclid_zero hK (ht.symm.trans h0)
        rw [this]; simp
      · rw [mul_one_div_cancel h0, one_smul]
    · rw [hg] at h
      have hunit : w ⬝ᵥ w = 1 := by
        rw [hw', smul_dotProduct, dotProduct_smul, ← Euclid_sq hK, ← ht]
        simp only [smul_eq_mul]; field_simp
      have hperp : ∀ k, k ≤ ii → w ⬝ᵥ s.h (v k) = 0 := fun k hk => by
        rw [hw', smul_dotProduct, e4 k (by omega), smul_zero]
      intro j k hj hk
      simp only
      by_cases hj' : j = ii + 1
      · subst hj'
        by_cases hk' : k = ii + 1
        · subst hk'
          rw [Function.update_self, if_pos rfl, hunit]
        · rw [Function.update_self, hf k (by omega), if_neg (by omega)]
          exact hperp k (by omega)
      · by_cases hk' : k = ii + 1
        · subst hk'
          rw [Function.update_self, hf j (by omega), if_neg (by omega), dotProduct_comm]
          exact hperp j (by omega)
        · rw [hf j (by omega), hf k (by omega)]
          exact ho j k (by omega) (by omega)

theorem gmRotate_res (K : Kit ℝ ℝ n) (m ii : ℕ) (hi : ii < m) (a : Arr (Option ℝ))
    (s : MSt ℝ ℝ n) (hsz : a.size = (m + 1 + 1) * (m + 1 + 2)) (hc : ∀ k, k ≤ ii + 1 → a.get (gmH m k ii) ≠ none)
    (hr : GmRot m ii a) (h1 : ∀ j, j < ii → gc m a j * gc m a j + gs m a j * gs m a j = 1) (V : ℕ → Fin n → ℝ) :
    Ok ((gmRotate m ii a).run K s) fun r =>
      gh m r.1 (ii + 1) ii = gh m a (ii + 1) ii ∧
      ∑ k ∈ range ii, gh m r.1 k ii • gq (gc m a) (gs m a) V k + gh m r.1 ii ii • gp (gc m a) (gs m a) V ii +
        gh m r.1 (ii + 1) ii • V (ii + 1) = ∑ k ∈ range (ii + 2), gh m a k ii • V k := by
  unfold gmRotate
  refine Ok_pfor (fun jj a' s' => jj ≤ ii ∧ ArrMono a a' ∧
      (∀ k, (∀ k', k' ≤ m → k ≠ gmH m k' ii) → a'.get k = a.get k) ∧
      (∀ k, jj < k → k ≤ m → gh m a' k ii = gh m a k ii) ∧
      ∑ k ∈ range jj, gh m a' k ii • gq (gc m a) (gs m a) V k + gh m a' jj ii • gp (gc m a) (gs m a) V jj +
        ∑ k ∈ Ico (jj + 1) (ii + 2), gh m a k ii • V k = ∑ k ∈ range (ii + 2), gh m a k ii • V k)
    ii 0 a s ⟨by omega, .refl a, fun _ _ => rfl, fun _ _ _ => rfl, ?_⟩ ?_ ?_
  · simp only [range_zero, sum_empty, zero_add, gp]
    rw [range_eq_Ico, sum_eq_sum_Ico_succ_bot (show 0 < ii + 2 by omega)]
  · rintro jj a' s' - hj ⟨-, e1, e2, e3, e4⟩
    have hsz' := e1.1.trans hsz
    refine Ok_aUse (by gmidx) (e1.2 _ (hc jj (by omega))) fun t ht => Ok_aUse (by gmidx) (e1.2 _ (hr jj (by omega)).1)
      fun c hcv => Ok_aUse (by gmidx) (e1.2 _ (hr jj (by omega)).2) fun sn hsn =>
      Ok_aUse (by gmidx) (e1.2 _ (hc (jj + 1) (by omega))) fun hk hhk => ?_
    simp only
    refine Ok_aWr (by gmidx) (Ok_aWr1 ?_ ⟨by omega,
        e1.trans ((ArrMono.set _ _ _).trans (.set _ _ _)), fun k hk => ?_, fun k h1 h2 => ?_, ?_⟩)
    · simp only [Arr.set_size]; gmidx
    · rw [Arr.set_get_ne _ _ (hk _ (by omega)), Arr.set_get_ne _ _ (hk _ (by omega))]; exact e2 k hk
    · rw [gh_set_ne (gmH_ne (by omega) (by omega) (.inl (by omega))), gh_set_ne (gmH_ne (by omega) (by omega) (.inl (by omega)))]
      exact e3 k (by omega) h2
    · rw [e2 _ fun k' hk' => (gmH_ne_cs hk' hi).symm] at hcv
      rw [e2 _ fun k' hk' => (gmH_ne_sn hk' hi).symm] at hsn
      have c1 : gc m a jj = c := by simp [gc, hcv]
      have c2 : gs m a jj = sn := by simp [gs, hsn]
      have c3 : gh m a' jj ii = t := by simp [gh, ht]
      have c4 : gh m a (jj + 1) ii = hk := by rw [← e3 (jj + 1) (by omega) (by omega)]; simp [gh, hhk]
      rw [← e4, sum_range_succ, sum_eq_sum_Ico_succ_bot (show jj + 1 < ii + 2 by omega)]
      rw [sum_congr rfl (g := fun k => gh m a' k ii • gq (gc m a) (gs m a) V k) fun k' hk' => by
        have := mem_range.1 hk'
        rw [gh_set_ne (gmH_ne (by omega) (by omega) (.inl (by omega))), gh_set_ne (gmH_ne (by omega) (by omega) (.inl (by omega)))]]
      rw [gh_set_ne (gmH_ne (by omega) (by omega) (.inl (by omega)))]
      have d1 : ∀ x : ℝ, ∀ b : Arr (Option ℝ), gh m (b.set (gmH m jj ii) (some x)) jj ii = x := by intro x b; simp [gh]
      have d2 : ∀ x : ℝ, ∀ b : Arr (Option ℝ), gh m (b.set (gmH m (jj + 1) ii) (some x)) (jj + 1) ii = x := by intro x b; simp [gh]
      rw [d1, d2, c3, c4]
      have key : (c * t + sn * hk) • gq (gc m a) (gs m a) V jj + (-sn * t + c * hk) • gp (gc m a) (gs m a) V (jj + 1) =
          t • gp (gc m a) (gs m a) V jj + hk • V (jj + 1) := by
        have hcs := h1 jj (by omega)
        have x1 := gp_split (V := V) hcs
        have x2 := gv_split (V := V) hcs
        rw [c1, c2] at x1 x2
        generalize gp (gc m a) (gs m a) V (jj + 1) = p1 at *
        generalize gq (gc m a) (gs m a) V jj = q at *
        rw [x1, x2]
        module
      generalize ∑ k ∈ range jj, gh m a' k ii • gq (gc m a) (gs m a) V k = X
      generalize ∑ k ∈ Ico (jj + 1 + 1) (ii + 2), gh m a k ii • V k = Y
      rw [add_assoc X, key]
      abel
  · rintro a' s' ⟨-, -, -, e3, e4⟩
    rw [Nat.zero_add] at e3 e4
    refine ⟨e3 (ii + 1) (by omega) (by omega), ?_⟩
    rw [← e4, e3 (ii + 1) (by omega) (by omega)]
    simp

theorem gmGivens_res (tiny : ℝ) (K : Kit ℝ ℝ n) (m ii : ℕ) (hi : ii < m) (a : Arr (Option ℝ)) (sa : Arr ℝ)
    (s : MSt ℝ ℝ n) (hsz : a.size = (m + 1 + 1) * (m + 1 + 2)) (hs : sa.size = m + 1)
    (hc : ∀ k, k ≤ ii + 1 → a.get (gmH m k ii) ≠ none) (hne : gh m a ii ii ≠ 0 ∨ gh m a (ii + 1) ii ≠ 0) :
    Ok ((gmGivens (gmReal tiny) m ii a sa).run K s) fun r =>
      (gc m r.1.1 ii * gc m r.1.1 ii + gs m r.1.1 ii * gs m r.1.1 ii = 1) ∧
      gh m r.1.1 ii ii ≠ 0 ∧ gh m r.1.1 ii ii * gc m r.1.1 ii = gh m a ii ii ∧
      gh m r.1.1 ii ii * gs m r.1.1 ii = gh m a (ii + 1) ii ∧
      r.1.2.get ii = gc m r.1.1 ii * sa.get ii ∧ r.1.2.get (ii + 1) = - gs m r.1.1 ii * sa.get ii ∧
      ∀ k, k < ii → r.1.2.get k = sa.get k := by
  unfold gmGivens
  refine Ok_aUse (by gmidx) (hc ii (by omega)) fun aa haa => Ok_aUse (by gmidx) (hc (ii + 1) (by omega)) fun bb hbb => ?_
  simp only
  have c1 : gh m a ii ii = aa := by simp [gh, haa]
  have c2 : gh m a (ii + 1) ii = bb := by simp [gh, hbb]
  rw [c1, c2] at hne ⊢
  have hpos : 0 < aa * aa + bb * bb := by
    rcases hne with h | h
    · have := mul_self_pos.2 h; have := mul_self_nonneg bb; linarith
    · have := mul_self_pos.2 h; have := mul_self_nonneg aa; linarith
  have hsq : Real.sqrt (aa * aa + bb * bb) ≠ 0 := (Real.sqrt_pos.2 hpos).ne'
  have hsq2 := Real.mul_self_sqrt hpos.le
  have hif : (if (gmReal tiny).sqrt (aa * aa + bb * bb) = 0 then (gmReal tiny).tiny else (gmReal tiny).sqrt (aa * aa + bb * bb)) =
      Real.sqrt (aa * aa + bb * bb) := if_neg hsq
  rw [hif]
  generalize Real.sqrt (aa * aa + bb * bb) = rr at hsq hsq2
  have h2 : ∀ x : ℝ, (a.set (gmCs m ii) (some x)).size = (m + 1 + 1) * (m + 1 + 2) := fun _ => hsz
  have h3 : ∀ x y : ℝ, ((a.set (gmCs m ii) (some x)).set (gmSn m ii) (some y)).size = (m + 1 + 1) * (m + 1 + 2) := fun _ _ => hsz
  refine Ok_aWr (by gmidx) (Ok_aWr (by rw [h2, (gm_sz _).1]; simp only [gmSn, (gm_sz _).2.2]; omega) ?_)
  have n1 : gmH m ii ii ≠ gmSn m ii := gmH_ne_sn (by omega) hi
  have n2 : gmH m ii ii ≠ gmCs m ii := gmH_ne_cs (by omega) hi
  have n3 : gmH m (ii + 1) ii ≠ gmSn m ii := gmH_ne_sn (by omega) hi
  have n4 : gmH m (ii + 1) ii ≠ gmCs m ii := gmH_ne_cs (by omega) hi
  have n5 : gmCs m ii ≠ gmSn m ii := gmCs_ne_sn hi
  have hm : ArrMono a ((a.set (gmCs m ii) (some (aa / rr))).set (gmSn m ii) (some (bb / rr))) :=
    (ArrMono.set _ _ _).trans (.set _ _ _)
  refine Ok_aUse (by rw [h3, (gm_sz _).1]; simp only [gmSn, (gm_sz _).2.2]; omega) (by simp) fun sn hsn =>
    Ok_aRd (by omega) (Ok_aWr (by omega) (Ok_aUse (by rw [h3, (gm_sz _).1]; simp only [gmCs, (gm_sz _).2.1]; omega)
      ((ArrMono.set _ _ _).2 _ (by simp)) fun cs hcs => Ok_aRd (by simp only [Arr.set_size]; omega)
      (Ok_aWr (by simp only [Arr.set_size]; omega)
      (Ok_aUse (by rw [h3, (gm_sz _).1]; exact Nat.lt_of_lt_of_le (gmH_lt (by omega) (by omega)) (by omega)) (hm.2 _ (hc ii (by omega)))
      fun hi' hhi => Ok_aUse (by rw [h3, (gm_sz _).1]; exact Nat.lt_of_lt_of_le (gmH_lt (by omega) (by omega)) (by omega))
        (hm.2 _ (hc (ii + 1) (by omega))) fun h1 hh1 =>
        Ok_aWr (by rw [h3, (gm_sz _).1]; exact Nat.lt_of_lt_of_le (gmH_lt (by omega) (by omega)) (by omega)) (Ok_ret ?_)))))
  simp only [Arr.set_get_self, Option.some.injEq] at hsn
  rw [Arr.set_get_ne _ _ n5] at hcs
  simp only [Arr.set_get_self, Option.some.injEq] at hcs
  rw [Arr.set_get_ne _ _ n1, Arr.set_get_ne _ _ n2, haa] at hhi
  rw [Arr.set_get_ne _ _ n3, Arr.set_get_ne _ _ n4, hbb] at hh1
  simp only [Option.some.injEq] at hhi hh1
  subst hsn hcs hhi hh1
  have g1 : gh m ((((a.set (gmCs m ii) (some (aa / rr))).set (gmSn m ii) (some (bb / rr))).set (gmH m ii ii)
      (some (aa / rr * aa + bb / rr * bb)))) ii ii = aa / rr * aa + bb / rr * bb := by simp [gh]
  have g2 : gc m ((((a.set (gmCs m ii) (some (aa / rr))).set (gmSn m ii) (some (bb / rr))).set (gmH m ii ii)
      (some (aa / rr * aa + bb / rr * bb)))) ii = aa / rr := by
    unfold gc; rw [Arr.set_get_ne _ _ n2.symm, Arr.set_get_ne _ _ n5]; simp
  have g3 : gs m ((((a.set (gmCs m ii) (some (aa / rr))).set (gmSn m ii) (some (bb / rr))).set (gmH m ii ii)
      (some (aa / rr * aa + bb / rr * bb)))) ii = bb / rr := by
    unfold gs; rw [Arr.set_get_ne _ _ n1.symm]; simp
  simp only
  rw [g1, g2, g3]
  have hrr : aa / rr * aa + bb / rr * bb = rr := by
    field_simp; rw [sq, sq, ← hsq2, sq]
  rw [hrr]
  refine ⟨?_, hsq, by field_simp, by field_simp, ?_, ?_, fun k hk => ?_⟩
  · field_simp; rw [sq, sq, ← hsq2, sq]
  · rw [Arr.set_get_self, Arr.set_get_ne _ _ (show ii ≠ ii + 1 by omega)]
  · rw [Arr.set_get_ne _ _ (show ii + 1 ≠ ii by omega), Arr.set_get_self]
  · rw [Arr.set_get_ne _ _ (by omega), Arr.set_get_ne _ _ (by omega)]

/-- `B = A M⁻¹` on the basis is the triangular matrix on the rotated basis, and `ρ` has coordinates `sa` -/
structure GmI (m : ℕ) (B : (Fin n → ℝ) →ₗ[ℝ] (Fin n → ℝ)) (ρ : Fin n → ℝ) (V : ℕ → Fin n → ℝ) (i : ℕ)
    (a : Arr (Option ℝ)) (sa : Arr ℝ) : Prop where
  rot : ∀ j, j < i → gc m a j * gc m a j + gs m a j * gs m a j = 1
  col : ∀ j, j < i → B (V j) = ∑ k ∈ range (j + 1), gh m a k j • gq (gc m a) (gs m a) V k
  dia : ∀ j, j < i → gh m a j j ≠ 0
  res : ρ = ∑ j ∈ range i, sa.get j • gq (gc m a) (gs m a) V j + sa.get i • gp (gc m a) (gs m a) V i

theorem gmStep_res (tiny : ℝ) (K : Kit ℝ ℝ n) (hK : K.Euclid) (B : (Fin n → ℝ) →ₗ[ℝ] (Fin n → ℝ))
    (hB : ∀ w, B w = K.mv (K.ps w)) (hinj : Function.Injective B) (m : ℕ) (v z : ℕ → ℕ)
    (hvz : ∀ i, v i ≠ z i ∧ z i ≠ v (i + 1)) (hv : Function.Injective v) (hzv : ∀ i j, i < m → z i ≠ v j)
    (fin : ℝ → ℝ) (o : Opts ℝ ℝ) (iter ii : ℕ) (hi : ii < m) (a : Arr (Option ℝ)) (sa : Arr ℝ) (ρ : Fin n → ℝ)
    (s : MSt ℝ ℝ n) (hsz : a.size = (m + 1 + 1) * (m + 1 + 2)) (hs : sa.size = m + 1) (hr : GmRot m ii a)
    (hc : GmCols m ii a) (hh : iter < s.hist.size) (ho : Orth (fun k => s.h (v k)) ii)
    (hI : GmI m B ρ (fun k => s.h (v k)) ii a sa) :
    Ok ((gmStep (gmReal tiny) m v z hvz fin o iter ii a sa).run K s) fun r =>
      GmI m B ρ (fun k => r.2.h (v k)) (ii + 1) r.1.1 r.1.2.1 ∧
      (r.1.2.1.get (ii + 1) = 0 ∨ Orth (fun k => r.2.h (v k)) (ii + 1)) ∧
      r.1.2.2 = fin |r.1.2.1.get (ii + 1)| ∧ r.2.h (z ii) = K.ps (s.h (v ii)) := by
  unfold gmStep
  simp only [mPsolve, mMatvec]
  have hne : ∀ k, k ≤ ii → v k ≠ v (ii + 1) := fun k hk h => by have := hv h; omega
  refine Ok_vop fun w1 h1 => Ok_vop fun w2 h2 => ?_
  simp only [VOp.dst, VOp.val] at h1 h2 ⊢
  rw [Function.update_self] at h2
  have hf0 : ∀ k, k ≤ ii → (Function.update (Function.update s.h (z ii) w1) (v (ii + 1)) w2) (v k) = s.h (v k) := fun k hk => by
    rw [Function.update_of_ne (hne k hk), Function.update_of_ne (hzv ii k hi).symm]
  refine Ok_pbind (((gmArnoldi_ok (gmReal tiny) K m v ii hi a _ hsz).conj (gmArnoldi_res tiny K hK m v hv ii hi a _ hsz ?_)).mono ?_)
  · intro j k hj hk
    simp only
    rw [hf0 j hj, hf0 k hk]
    exact ho j k hj hk
  rintro ⟨a1, s1⟩ ⟨⟨e1, e2, e3, e4, e5⟩, e6, e7⟩
  simp only at e1 e2 e3 e4 e5 e6 e7
  rw [Function.update_self, h2, h1, ← hB] at e6
  have hV1 : ∀ k, k ≤ ii → s1.h (v k) = s.h (v k) := fun k hk => by rw [e2 _ (hne k hk), hf0 k hk]
  have hz1 : s1.h (z ii) = K.ps (s.h (v ii)) := by
    rw [e2 _ (hvz ii).2, Function.update_of_ne (hvz ii).2, Function.update_self, h1]
  have hsz1 := e3.1.trans hsz
  have hrot1 : GmRot m ii a1 := fun j hj => ⟨e3.2 _ (hr j hj).1, e3.2 _ (hr j hj).2⟩
  have hgc1 : ∀ j, gc m a1 j = gc m a j := fun j => by
    unfold gc; rw [e5 _ fun k' hk' => (gmH_ne_cs hk' hi).symm]
  have hgs1 : ∀ j, gs m a1 j = gs m a j := fun j => by
    unfold gs; rw [e5 _ fun k' hk' => (gmH_ne_sn hk' hi).symm]
  have hgh1 : ∀ k j, k ≤ m → j < ii → gh m a1 k j = gh m a k j := fun k j hk hj => by
    unfold gh; rw [e5 _ fun k' hk' => gmH_ne hk hk' (.inr (by omega))]
  refine Ok_pbind (((gmRotate_ok K m ii hi a1 s1 hsz1 e4 hrot1).conj (gmRotate_res K m ii hi a1 s1 hsz1 e4 hrot1
    (fun j hj => by rw [hgc1, hgs1]; exact hI.rot j hj) (fun k => s1.h (v k)))).mono ?_)
  rintro ⟨a2, s2⟩ ⟨⟨f1, f2, f3⟩, f4, f5⟩
  simp only at f1 f2 f3 f4 f5
  subst f1
  have hsz2 := f2.1.trans hsz1
  have hgc2 : ∀ j, gc m a2 j = gc m a j := fun j => by
    rw [← hgc1]; unfold gc; rw [f3 _ fun k' hk' => (gmH_ne_cs hk' hi).symm]
  have hgs2 : ∀ j, gs m a2 j = gs m a j := fun j => by
    rw [← hgs1]; unfold gs; rw [f3 _ fun k' hk' => (gmH_ne_sn hk' hi).symm]
  have hgh2 : ∀ k j, k ≤ m → j < ii → gh m a2 k j = gh m a k j := fun k j hk hj => by
    rw [← hgh1 k j hk hj]; unfold gh; rw [f3 _ fun k' hk' => gmH_ne hk hk' (.inr (by omega))]
  -- the new column
  have hgq : ∀ k, k < ii → gq (gc m a1) (gs m a1) (fun k => s2.h (v k)) k = gq (gc m a) (gs m a) (fun k => s.h (v k)) k := fun k hk =>
    gq_congr (fun j _ => ⟨hgc1 j, hgs1 j⟩) fun j hj => hV1 j (by omega)
  have hgp : gp (gc m a1) (gs m a1) (fun k => s2.h (v k)) ii = gp (gc m a) (gs m a) (fun k => s.h (v k)) ii :=
    gp_congr (fun j _ => ⟨hgc1 j, hgs1 j⟩) fun j hj => hV1 j hj
  rw [← e6, sum_congr rfl fun k hk => by rw [hgq k (mem_range.1 hk)], hgp] at f5
  have hnz : gh m a2 ii ii ≠ 0 ∨ gh m a2 (ii + 1) ii ≠ 0 := by
    by_contra hcon
    simp only [not_or, not_not] at hcon
    rw [hcon.1, hcon.2, zero_smul, zero_smul, add_zero, add_zero] at f5
    exact gm_col_ne hinj ho hI.col hI.dia _ f5.symm
  refine Ok_pbind (((gmGivens_ok (gmReal tiny) K m ii hi a2 sa s2 hsz2 hs fun k hk => f2.2 _ (e4 k hk)).conj
    (gmGivens_res tiny K m ii hi a2 sa s2 hsz2 hs (fun k hk => f2.2 _ (e4 k hk)) hnz)).mono ?_)
  rintro ⟨⟨a3, sa3⟩, s3⟩ ⟨⟨g1, g2, g3, -, -, g4⟩, k1, k2, k3, k4, k5, k6, k7⟩
  simp only at g1 g2 g3 g4 k1 k2 k3 k4 k5 k6 k7
  subst g1
  have hgc3 : ∀ j, j < ii → gc m a3 j = gc m a j := fun j hj => by
    rw [← hgc2]; unfold gc
    rw [g4 _ (gmH_ne_cs (by omega) hi).symm (by simp only [gmCs]; omega) (gmCs_ne_sn (by omega))]
  have hgs3 : ∀ j, j < ii → gs m a3 j = gs m a j := fun j hj => by
    rw [← hgs2]; unfold gs
    rw [g4 _ (gmH_ne_sn (by omega) hi).symm (gmCs_ne_sn hi).symm (by simp only [gmSn]; omega)]
  have hgh3 : ∀ k j, k ≤ m → j ≤ ii → (k ≠ ii ∨ j ≠ ii) → gh m a3 k j = gh m a2 k j := fun k j hk hj h => by
    unfold gh
    rw [g4 _ (gmH_ne hk (by omega) h) (gmH_ne_cs hk (by omega)) (gmH_ne_sn hk (by omega))]
  have hgq3 : ∀ k, k < ii → gq (gc m a3) (gs m a3) (fun k => s3.h (v k)) k = gq (gc m a) (gs m a) (fun k => s.h (v k)) k := fun k hk =>
    gq_congr (fun j _ => ⟨hgc3 j (by omega), hgs3 j (by omega)⟩) fun j hj => hV1 j (by omega)
  have hgp3 : gp (gc m a3) (gs m a3) (fun k => s3.h (v k)) ii = gp (gc m a) (gs m a) (fun k => s.h (v k)) ii :=
    gp_congr (fun j _ => ⟨hgc3 j (by omega), hgs3 j (by omega)⟩) fun j hj => hV1 j hj
  have hIn : GmI m B ρ (fun k => s3.h (v k)) (ii + 1) a3 sa3 := by
    refine ⟨fun j hj => ?_, fun j hj => ?_, fun j hj => ?_, ?_⟩
    · by_cases he : j = ii
      · subst he; exact k1
      · rw [hgc3 j (by omega), hgs3 j (by omega)]; exact hI.rot j (by omega)
    · by_cases he : j = ii
      · subst he
        rw [hV1 j le_rfl, sum_range_succ, sum_congr rfl (g := fun k => gh m a2 k j • gq (gc m a) (gs m a) (fun k => s.h (v k)) k)
          fun k hk => by have := mem_range.1 hk; rw [hgh3 k j (by omega) le_rfl (.inl (by omega)), hgq3 k (by omega)]]
        rw [← f5, add_assoc]
        congr 1
        unfold gq
        rw [smul_add, smul_smul, smul_smul, k3, k4, hgp3]
      · rw [hV1 j (by omega), hI.col j (by omega)]
        refine sum_congr rfl fun k hk => ?_
        have := mem_range.1 hk
        rw [hgh3 k j (by omega) (by omega) (.inr he), hgh2 k j (by omega) (by omega), hgq3 k (by omega)]
    · by_cases he : j = ii
      · subst he; exact k2
      · rw [hgh3 j j (by omega) (by omega) (.inl he), hgh2 j j (by omega) (by omega)]; exact hI.dia j (by omega)
    · rw [sum_range_succ, k5, k6, sum_congr rfl (g := fun k => sa.get k • gq (gc m a) (gs m a) (fun k => s.h (v k)) k)
          fun k hk => by have := mem_range.1 hk; rw [k7 k (by omega), hgq3 k (by omega)]]
      rw [hI.res, add_assoc]
      congr 1
      rw [← hgp3, gp_split k1]
      generalize gp (gc m a3) (gs m a3) (fun k => s3.h (v k)) (ii + 1) = p
      generalize gq (gc m a3) (gs m a3) (fun k => s3.h (v k)) ii = q
      module
  have hor : sa3.get (ii + 1) = 0 ∨ Orth (fun k => s3.h (v k)) (ii + 1) := by
    by_cases hb : gh m a1 (ii + 1) ii = 0
    · left
      rw [f4, hb] at k4
      rcases mul_eq_zero.1 k4 with h | h
      · exact absurd h k2
      · rw [k6, h]; simp
    · exact .inr (e7 hb)
  simp only
  refine Ok_aRd (by omega) (Ok_pif (fun hmem => Ok_hist (by rw [e1]; exact hh) (Ok_ret ⟨hIn, hor, rfl, hz1⟩))
    fun hmem => Ok_ret ⟨hIn, hor, rfl, hz1⟩)

/-- the inner loop -/
theorem gmInner_res (tiny : ℝ) (K : Kit ℝ ℝ n) (hK : K.Euclid) (B : (Fin n → ℝ) →ₗ[ℝ] (Fin n → ℝ))
    (hB : ∀ w, B w = K.mv (K.ps w)) (hinj : Function.Injective B) (m : ℕ) (v z : ℕ → ℕ)
    (hvz : ∀ i, v i ≠ z i ∧ z i ≠ v (i + 1)) (hv : Function.Injective v) (hzv : ∀ i j, i < m → z i ≠ v j)
    (fin : ℝ → ℝ) (o : Opts ℝ ℝ) (tol : ℝ) (hfin : fin 0 ≤ tol) (ρ : Fin n → ℝ) :
    ∀ (k iter ii : ℕ) (a : Arr (Option ℝ)) (sa : Arr ℝ) (s : MSt ℝ ℝ n), ii + k < m → iter + k + 1 < s.hist.size →
    a.size = (m + 1 + 1) * (m + 1 + 2) → sa.size = m + 1 → GmRot m ii a → GmCols m ii a →
    Orth (fun k => s.h (v k)) ii → GmI m B ρ (fun k => s.h (v k)) ii a sa →
    Ok ((gmInner (gmReal tiny) m v z hvz fin o tol k iter ii a sa).run K s) fun r =>
      r.2.hist.size = s.hist.size ∧ r.1.1.size = (m + 1 + 1) * (m + 1 + 2) ∧ r.1.2.1.size = m + 1 ∧
      ii ≤ r.1.2.2.2 ∧ r.1.2.2.2 ≤ ii + k ∧ GmRot m (r.1.2.2.2 + 1) r.1.1 ∧ GmCols m (r.1.2.2.2 + 1) r.1.1 ∧
      (∀ k, (∀ j, k ≠ z j ∧ k ≠ v (j + 1)) → r.2.h k = s.h k) ∧
      GmI m B ρ (fun k => r.2.h (v k)) (r.1.2.2.2 + 1) r.1.1 r.1.2.1 ∧
      (r.1.2.1.get (r.1.2.2.2 + 1) = 0 ∨ Orth (fun k => r.2.h (v k)) (r.1.2.2.2 + 1)) ∧
      r.1.2.2.1 = fin |r.1.2.1.get (r.1.2.2.2 + 1)| ∧
      (¬ r.1.2.2.1 ≤ tol → r.1.2.2.2 = ii + k) ∧
      ((∀ i j, z i = z j → i = j) → ∀ j, j ≤ r.1.2.2.2 → (j < ii → s.h (z j) = K.ps (s.h (v j))) →
        r.2.h (z j) = K.ps (r.2.h (v j))) := by
  have hstep : ∀ (ii : ℕ) (s s1 : MSt ℝ ℝ n), ii < m → (∀ k, k ≠ z ii → k ≠ v (ii + 1) → s1.h k = s.h k) →
      s1.h (z ii) = K.ps (s.h (v ii)) → (∀ i j, z i = z j → i = j) → ∀ j, j ≤ ii →
      (j < ii → s.h (z j) = K.ps (s.h (v j))) → s1.h (z j) = K.ps (s1.h (v j)) := by
    intro ii s s1 hi e2 f4 hzi j hj h
    have hvj : s1.h (v j) = s.h (v j) := e2 _ (hzv ii j hi).symm fun h => by have := hv h; omega
    by_cases he : j = ii
    · subst he; rw [f4, hvj]
    · rw [hvj, e2 _ (fun h => he (hzi _ _ h)) (hzv j _ (by omega)), h (by omega)]
  intro k
  induction k with
  | zero =>
    intro iter ii a sa s hk hit hsz hs hr hc ho hI
    unfold gmInner
    refine Ok_pbind (((gmStep_ok (gmReal tiny) K m v z hvz fin o (iter + 1) ii (by omega) a sa s hsz hs hr hc (by omega)).conj
      (gmStep_res tiny K hK B hB hinj m v z hvz hv hzv fin o (iter + 1) ii (by omega) a sa ρ s hsz hs hr hc (by omega) ho hI)).mono ?_)
    rintro ⟨⟨a1, sa1, nrm⟩, s1⟩ ⟨⟨e1, e2, e3, e4, e5, e6⟩, f1, f2, f3, f4⟩
    simp only at e1 e2 e3 e4 e5 e6 f1 f2 f3 f4
    exact Ok_ret ⟨e1.size, e3, e4, le_rfl, le_rfl, e5, e6, fun k hk => e2 k (hk ii).1 (hk ii).2, f1, f2, f3, fun _ => rfl,
      fun hzi j hj h => hstep ii s s1 (by omega) e2 f4 hzi j hj h⟩
  | succ k ih =>
    intro iter ii a sa s hk hit hsz hs hr hc ho hI
    unfold gmInner
    refine Ok_pbind (((gmStep_ok (gmReal tiny) K m v z hvz fin o (iter + 1) ii (by omega) a sa s hsz hs hr hc (by omega)).conj
      (gmStep_res tiny K hK B hB hinj m v z hvz hv hzv fin o (iter + 1) ii (by omega) a sa ρ s hsz hs hr hc (by omega) ho hI)).mono ?_)
    rintro ⟨⟨a1, sa1, nrm⟩, s1⟩ ⟨⟨e1, e2, e3, e4, e5, e6⟩, f1, f2, f3, f4⟩
    simp only at e1 e2 e3 e4 e5 e6 f1 f2 f3 f4
    refine Ok_pif (fun hle => Ok_ret ⟨e1.size, e3, e4, le_rfl, by simp only; omega, e5, e6,
      fun k hk => e2 k (hk ii).1 (hk ii).2, f1, f2, f3, fun h => absurd hle h,
      fun hzi j hj h => hstep ii s s1 (by omega) e2 f4 hzi j hj h⟩) fun hle => ?_
    have ho1 : Orth (fun k => s1.h (v k)) (ii + 1) := by
      rcases f2 with h | h
      · exfalso; apply hle; rw [f3, h]; simpa using hfin
      · exact h
    refine (ih (iter + 1) (ii + 1) a1 sa1 s1 (by omega) (by rw [e1.size]; omega) e3 e4 e5 e6 ho1 f1).mono ?_
    rintro ⟨⟨a2, sa2, nrm2, i2⟩, s2⟩ ⟨g1, g2, g3, g4, g5, g6, g7, g8, g9, g10, g11, g12, g13⟩
    simp only at g1 g2 g3 g4 g5 g6 g7 g8 g9 g10 g11 g12 g13
    exact ⟨g1.trans e1.size, g2, g3, by simp only; omega, by simp only; omega, g6, g7,
      fun k hk => (g8 k hk).trans (e2 k (hk ii).1 (hk ii).2), g9, g10, g11, fun h => by simp only at h ⊢; have := g12 h; omega,
      fun hzi j hj h => g13 hzi j hj fun hj1 => hstep ii s s1 (by omega) e2 f4 hzi j (by omega) h⟩

/-- the triangular solve -/
theorem gmBack_res (K : Kit ℝ ℝ n) (m ii : ℕ) (hi : ii < m) (a : Arr (Option ℝ)) (s : MSt ℝ ℝ n)
    (hsz : a.size = (m + 1 + 1) * (m + 1 + 2)) (hc : GmCols m (ii + 1) a) (hd : ∀ j, j ≤ ii → gh m a j j ≠ 0)
    (g : ℕ → ℝ) : ∀ (k : ℕ) (sa : Arr ℝ), sa.size = m + 1 → k ≤ ii → (∀ j, j < k → sa.get j = g j) →
    (∀ j, k ≤ j → j ≤ ii → ∑ i ∈ Ico j (ii + 1), gh m a j i * sa.get i = g j) →
    Ok ((gmBack m ii a k sa).run K s) fun r => (∀ j, ii < j → r.1.get j = sa.get j) ∧
      ∀ j, j ≤ ii → ∑ i ∈ Ico j (ii + 1), gh m a j i * r.1.get i = g j := by
  intro k
  induction k with
  | zero => intro sa hs hk _ h2; exact Ok_ret ⟨fun _ _ => rfl, fun j hj => h2 j (by omega) hj⟩
  | succ k ih =>
    intro sa hs hk h1 h2
    unfold gmBack
    refine Ok_aRd (by omega) (Ok_pbind (Ok_pfor (fun j t s' => s' = s ∧
      t = g k - ∑ i ∈ Ico (k + 1) j, gh m a k i * sa.get i) (ii - k) (k + 1) _ s ⟨rfl, by simp [h1 k (by omega)]⟩ ?_ ?_))
    · rintro j t s' hj1 hj2 ⟨rfl, rfl⟩
      refine Ok_aUse (by gmidx) (hc k j (by omega) (by omega)) fun x hx => Ok_aRd (by omega) (Ok_ret ⟨rfl, ?_⟩)
      have : gh m a k j = x := by simp [gh, hx]
      simp only
      rw [sum_Ico_succ_top (by omega), this]
      ring
    · rintro t s' ⟨rfl, ht⟩
      rw [show k + 1 + (ii - k) = ii + 1 by omega] at ht
      refine Ok_aUse (by gmidx) (hc k k le_rfl (by omega)) fun d hdv => Ok_aWr (by omega) ((ih _ (by simpa using hs) (by omega)
        (fun j hj => ?_) fun j hj1 hj2 => ?_).mono ?_)
      · rw [Arr.set_get_ne _ _ (by omega)]; exact h1 j (by omega)
      · have hcong : ∀ i ∈ Ico (k + 1) (ii + 1), (sa.set k (t / d)).get i = sa.get i := fun i hi => by
          rw [mem_Ico] at hi
          rw [Arr.set_get_ne _ _ (by omega)]
        by_cases he : j = k
        · subst he
          have hd' : gh m a j j = d := by simp [gh, hdv]
          have hd0 : d ≠ 0 := by rw [← hd']; exact hd j (by omega)
          have hsum : ∑ i ∈ Ico (j + 1) (ii + 1), gh m a j i * (sa.set j (t / d)).get i =
              ∑ i ∈ Ico (j + 1) (ii + 1), gh m a j i * sa.get i := sum_congr rfl fun i hi => by rw [hcong i hi]
          rw [sum_eq_sum_Ico_succ_bot (by omega), Arr.set_get_self, hd', mul_div_cancel₀ _ hd0, hsum, ht]
          ring
        · rw [← h2 j (by omega) hj2]
          refine sum_congr rfl fun i hi => ?_
          rw [hcong i (by rw [mem_Ico] at hi ⊢; omega)]
      · rintro r ⟨e1, e2⟩
        exact ⟨fun j hj => by rw [e1 j hj, Arr.set_get_ne _ _ (by omega)], e2⟩

theorem gmSolve_res (K : Kit ℝ ℝ n) (m ii : ℕ) (hi : ii < m) (a : Arr (Option ℝ)) (s : MSt ℝ ℝ n)
    (hsz : a.size = (m + 1 + 1) * (m + 1 + 2)) (hc : GmCols m (ii + 1) a) (hd : ∀ j, j ≤ ii → gh m a j j ≠ 0)
    (sa : Arr ℝ) (hs : sa.size = m + 1) :
    Ok ((gmSolve m ii a sa).run K s) fun r => (∀ j, ii < j → r.1.get j = sa.get j) ∧
      ∀ j, j ≤ ii → ∑ i ∈ Ico j (ii + 1), gh m a j i * r.1.get i = sa.get j := by
  unfold gmSolve
  refine Ok_aRd (by omega) (Ok_aUse (by gmidx) (hc ii ii le_rfl (by omega)) fun d hdv => Ok_aWr (by omega)
    ((gmBack_res K m ii hi a s hsz hc hd sa.get ii _ (by simpa using hs) le_rfl (fun j hj => ?_) fun j h1 h2 => ?_).mono ?_))
  · rw [Arr.set_get_ne _ _ (by omega)]
  · obtain rfl : j = ii := by omega
    have hd' : gh m a j j = d := by simp [gh, hdv]
    have hd0 : d ≠ 0 := by rw [← hd']; exact hd j le_rfl
    rw [Nat.Ico_succ_singleton, sum_singleton, Arr.set_get_self, hd', mul_div_cancel₀ _ hd0]
  · rintro r ⟨e1, e2⟩
    exact ⟨fun j hj => by rw [e1 j hj, Arr.set_get_ne _ _ (by omega)], e2⟩

/-- `s_k p_k` in the basis -/
theorem gmUnrot_res (K : Kit ℝ ℝ n) (m : ℕ) (a : Arr (Option ℝ)) (s : MSt ℝ ℝ n)
    (hsz : a.size = (m + 1 + 1) * (m + 1 + 2)) (V : ℕ → Fin n → ℝ) : ∀ (k : ℕ) (sa : Arr ℝ), sa.size = m + 1 → k ≤ m → GmRot m k a →
    Ok ((gmUnrot m a k sa).run K s) fun r => (∀ j, k < j → r.1.get j = sa.get j) ∧
      ∑ j ∈ range (k + 1), r.1.get j • V j = sa.get k • gp (gc m a) (gs m a) V k := by
  intro k
  induction k with
  | zero => intro sa hs hk _; exact Ok_ret ⟨fun _ _ => rfl, by simp [gp]⟩
  | succ k ih =>
    intro sa hs hk hr
    unfold gmUnrot
    refine Ok_aUse (by gmidx) (hr k (by omega)).2 fun sn hsn => Ok_aRd (by omega) (Ok_aWr (by omega)
      (Ok_aUse (by gmidx) (hr k (by omega)).1 fun cs hcs => Ok_aRd (by simp only [Arr.set_size]; omega)
        (Ok_aWr (by simp only [Arr.set_size]; omega) ((ih _ (by simpa using hs) (by omega) fun j hj => hr j (by omega)).mono ?_))))
    rintro r ⟨e1, e2⟩
    have c1 : gc m a k = cs := by simp [gc, hcs]
    have c2 : gs m a k = sn := by simp [gs, hsn]
    refine ⟨fun j hj => ?_, ?_⟩
    · rw [e1 j (by omega), Arr.set_get_ne _ _ (by omega), Arr.set_get_ne _ _ (by omega)]
    · rw [sum_range_succ, e2, e1 (k + 1) (by omega), Arr.set_get_self, Arr.set_get_ne _ _ (show k ≠ k + 1 by omega),
        Arr.set_get_self, Arr.set_get_ne _ _ (show k + 1 ≠ k by omega)]
      simp only [gp]
      rw [c1, c2]
      generalize gp (gc m a) (gs m a) V k = p
      module

theorem gmUpdate_res (K : Kit ℝ ℝ n) (ii : ℕ) (y : Arr ℝ) (hy : ii < y.size) (s : MSt ℝ ℝ n) :
    Ok ((gmUpdate ii y).run K s) fun r =>
      r.2.h hX = s.h hX + K.ps (∑ j ∈ range (ii + 1), y.get j • s.h (gmV j)) := by
  unfold gmUpdate
  simp only [vComb, mPsolve, vAxpy]
  refine Ok_aRd (by omega) (Ok_vop fun w1 hw1 => Ok_pbind (Ok_pfor (fun k _ s' => 1 ≤ k ∧ (∀ k, k ≠ wk 2 → s'.h k = s.h k) ∧
    s'.h (wk 2) = ∑ j ∈ range k, y.get j • s.h (gmV j)) ii 1 () _ ⟨le_rfl, fun k hk => ?_, ?_⟩ ?_ ?_))
  · simp only [VOp.dst]; rw [Function.update_of_ne hk]
  · simp only [VOp.dst, VOp.val, Function.update_self] at hw1 ⊢
    rw [hw1]
    funext i
    simp
  · rintro j _ s' h1 h2 ⟨-, e1, e2⟩
    refine Ok_aRd (by omega) (Ok_vop1 fun w hw => ⟨by omega, fun k hk => ?_, ?_⟩)
    · simp only [VOp.dst]; rw [Function.update_of_ne hk]; exact e1 k hk
    · simp only [VOp.dst, VOp.val, Function.update_self] at hw ⊢
      rw [hw, sum_range_succ, e2, e1 (gmV j) (by simp only [gmV, wk]; omega)]
      funext i
      simp
  · rintro _ s' ⟨-, e1, e2⟩
    refine Ok_vop fun w2 hw2 => Ok_vop1 fun w3 hw3 => ?_
    simp only [VOp.dst, VOp.val, Function.update_self] at hw2 hw3 ⊢
    rw [Function.update_of_ne (show hX ≠ wk 1 by decide)] at hw3
    rw [hw3, hw2, e1 hX (by decide), e2, Nat.add_comm 1 ii]
    funext i
    simp

theorem gmRestart_res (K : Kit ℝ ℝ n) (i1 : ℕ) (y : Arr ℝ) (hy : i1 < y.size) (s : MSt ℝ ℝ n) :
    Ok ((gmRestart i1 y).run K s) fun r => r.2.h (gmV 0) = ∑ j ∈ range (i1 + 1), y.get j • s.h (gmV j) := by
  unfold gmRestart
  simp only [vAxpy]
  refine Ok_pfor (fun k _ s' => (∀ k, k ≠ gmV 0 → s'.h k = s.h k) ∧
    s'.h (gmV 0) = (if k = 0 then s.h (gmV 0) else ∑ j ∈ range k, y.get j • s.h (gmV j))) (i1 + 1) 0 () s
    ⟨fun _ _ => rfl, by simp⟩ ?_ fun _ _ h => by rw [h.2, if_neg (by omega), Nat.zero_add]
  rintro j _ s' h1 h2 ⟨e1, e2⟩
  refine Ok_aRd (by omega) ?_
  refine Ok_vop1 fun w hw => ⟨fun k hk => ?_, ?_⟩
  · simp only [VOp.dst]; rw [Function.update_of_ne hk]; exact e1 k hk
  · simp only [VOp.dst, VOp.val, Function.update_self] at hw ⊢
    rw [if_neg (by omega), hw, sum_range_succ]
    by_cases h0 : j = 0
    · subst h0
      rw [e2]
      funext i
      simp
      ring
    · rw [if_neg h0, e2, if_neg h0, e1 (gmV j) (by simp only [gmV, wk]; omega)]
      funext i
      simp

theorem fgUpdate_res (K : Kit ℝ ℝ n) (ii : ℕ) (y : Arr ℝ) (hy : ii < y.size) (s : MSt ℝ ℝ n) :
    Ok ((fgUpdate ii y).run K s) fun r => r.2.h hX = s.h hX + ∑ j ∈ range (ii + 1), y.get j • s.h (fgZ j) := by
  unfold fgUpdate
  simp only [vAxpy]
  refine Ok_pfor (fun k _ s' => (∀ k, k ≠ hX → s'.h k = s.h k) ∧
    s'.h hX = s.h hX + ∑ j ∈ range k, y.get j • s.h (fgZ j)) (ii + 1) 0 () s
    ⟨fun _ _ => rfl, by simp⟩ ?_ fun _ _ h => by rw [h.2, Nat.zero_add]
  rintro j _ s' h1 h2 ⟨e1, e2⟩
  refine Ok_aRd (by omega) (Ok_vop1 fun w hw => ⟨fun k hk => ?_, ?_⟩)
  · simp only [VOp.dst]; rw [Function.update_of_ne hk]; exact e1 k hk
  · simp only [VOp.dst, VOp.val, Function.update_self] at hw ⊢
    rw [hw, sum_range_succ, e2, e1 (fgZ j) (by simp only [fgZ, hX, wk]; omega), ← add_assoc]
    funext i
    simp

end Lis
