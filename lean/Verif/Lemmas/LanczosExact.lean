import Verif.Lemmas.Lanczos
import Verif.Lemmas.GmresRes

namespace Lis
open Matrix Finset
variable {n : ℕ}

/-- after `i` passes, real arithmetic, without the shape of `t`; `B k` are the basis vectors, `r` the residual -/
structure LiCore (A : Matrix (Fin n) (Fin n) ℝ) (ss i : ℕ) (t : Arr ℝ) (B : ℕ → Fin n → ℝ) (r : Fin n → ℝ) : Prop where
  r0 : i = 0 → r = fun _ => 1
  start : 0 < i → B 0 = fun _ => 1 / √(n : ℝ)
  orth : ∀ j k, j < i → k < i → B j ⬝ᵥ B k = if j = k then 1 else 0
  cols : ∀ k, k < i → A *ᵥ B k = ((if k = 0 then 0 else t.rm ss (k - 1) k • B (k - 1)) + t.rm ss k k • B k) +
    if k + 1 = i then r else t.rm ss k (k + 1) • B (k + 1)
  perp : ∀ k, k < i → B k ⬝ᵥ r = 0
  norm : 0 < i → nrm r = t.rm ss (i - 1) i

theorem LiCore.step {A : Matrix (Fin n) (Fin n) ℝ} (hA : A.IsSymm) (hn : 0 < n) {ss i : ℕ} {t t' : Arr ℝ} {B B' : ℕ → Fin n → ℝ}
    {r v w : Fin n → ℝ} {a b : ℝ} (h : LiCore A ss i t B r) (hb : 0 < i → 0 < t.rm ss (i - 1) i)
    (hv : v = if i = 0 then (1 / nrm (n := n) fun _ => (1 : ℝ)) • r else (1 / t.rm ss (i - 1) i) • r)
    (ha : a = v ⬝ᵥ (A *ᵥ v - if i = 0 then 0 else t.rm ss (i - 1) i • B (i - 1)))
    (hw : w = (A *ᵥ v - if i = 0 then 0 else t.rm ss (i - 1) i • B (i - 1)) - a • v) (hbw : b = nrm w)
    (hB : ∀ k, k < i → B' k = B k) (hBi : (∀ k, k < i → B k ⬝ᵥ v = 0) → B' i = v)
    (hta : t'.rm ss i i = a) (htb : t'.rm ss i (i + 1) = b)
    (ht : ∀ k, k < i → t'.rm ss k k = t.rm ss k k ∧ t'.rm ss k (k + 1) = t.rm ss k (k + 1)) :
    LiCore A ss (i + 1) t' B' w := by
  have hsym : ∀ x y : Fin n → ℝ, x ⬝ᵥ A *ᵥ y = A *ᵥ x ⬝ᵥ y := by
    intro x y
    rw [Matrix.dotProduct_mulVec, ← Matrix.mulVec_transpose, hA.eq]
  have hones : nrm (n := n) (fun _ => (1 : ℝ)) = √(n : ℝ) := by
    unfold nrm
    congr 1
    simp [dotProduct]
  have hsn : 0 < √(n : ℝ) := Real.sqrt_pos.2 (by exact_mod_cast hn)
  have hpv : ∀ k, k < i → B k ⬝ᵥ v = 0 := by
    intro k hk
    rw [hv, if_neg (by omega), dotProduct_smul, h.perp k hk, smul_zero]
  have hBv := hBi hpv
  have hvv : v ⬝ᵥ v = 1 := by
    rw [hv]
    by_cases h0 : i = 0
    · rw [if_pos h0, h.r0 h0, smul_dotProduct, dotProduct_smul, ← nrm_sq, hones]
      simp only [smul_eq_mul]
      field_simp
    · rw [if_neg h0, smul_dotProduct, dotProduct_smul, ← nrm_sq, h.norm (by omega)]
      have := hb (by omega)
      simp only [smul_eq_mul]
      field_simp
  have hr : 0 < i → r = t.rm ss (i - 1) i • v := by
    intro h0
    rw [hv, if_neg (by omega), smul_smul, mul_one_div_cancel (hb h0).ne', one_smul]
  have hpw : ∀ k, k < i → B k ⬝ᵥ w = 0 := by
    intro k hk
    rw [hw, dotProduct_sub, dotProduct_sub, dotProduct_smul, hpv k hk, smul_zero, sub_zero, if_neg (by omega), dotProduct_smul,
      h.orth k (i - 1) hk (by omega), hsym, h.cols k hk, add_dotProduct, add_dotProduct, smul_dotProduct, hpv k hk]
    have e0 : (if k = 0 then 0 else t.rm ss (k - 1) k • B (k - 1)) ⬝ᵥ v = 0 := by
      split
      · rw [zero_dotProduct]
      · rw [smul_dotProduct, hpv _ (by omega), smul_zero]
    rw [e0]
    by_cases hki : k + 1 = i
    · rw [if_pos hki, if_pos (by omega), hr (by omega), smul_dotProduct, hvv]
      simp
    · rw [if_neg hki, if_neg (by omega), smul_dotProduct, hpv _ (by omega)]
      simp
  have hvw : v ⬝ᵥ w = 0 := by
    rw [hw, dotProduct_sub, dotProduct_smul, hvv, ← ha]
    simp
  have hAv : A *ᵥ v = (if i = 0 then 0 else t.rm ss (i - 1) i • B (i - 1)) + a • v + w := by
    rw [hw]; abel
  have htm : ∀ k, k < i → t'.rm ss (k - 1) k = t.rm ss (k - 1) k ∨ k = 0 := by
    intro k hk
    rcases Nat.eq_zero_or_pos k with h0 | h0
    · exact .inr h0
    · left
      have := (ht (k - 1) (by omega)).2
      rwa [show k - 1 + 1 = k by omega] at this
  refine ⟨fun h => absurd h (by omega), fun _ => ?_, fun j k hj hk => ?_, fun k hk => ?_, fun k hk => ?_, fun _ => ?_⟩
  · by_cases h0 : i = 0
    · subst h0
      rw [hBv, hv, if_pos rfl, h.r0 rfl, hones]
      funext l; simp
    · rw [hB 0 (by omega)]; exact h.start (by omega)
  · by_cases hj' : j = i
    · by_cases hk' : k = i
      · rw [hj', hk', hBv, hvv, if_pos rfl]
      · rw [hj', hBv, hB k (by omega), dotProduct_comm, hpv k (by omega), if_neg (by omega)]
    · by_cases hk' : k = i
      · rw [hk', hBv, hB j (by omega), hpv j (by omega), if_neg (by omega)]
      · rw [hB j (by omega), hB k (by omega)]; exact h.orth j k (by omega) (by omega)
  · by_cases hk' : k = i
    · subst hk'
      rw [hBv, hAv, hta, if_pos rfl]
      congr 2
      split
      · rfl
      · have := (ht (k - 1) (by omega)).2
        rw [show k - 1 + 1 = k by omega] at this
        rw [this, hB (k - 1) (by omega)]
    · have hki : k < i := by omega
      rw [hB k hki, h.cols k hki, (ht k hki).1, if_neg (show ¬ k + 1 = i + 1 by omega)]
      congr 2
      · split
        · rfl
        · rw [(htm k hki).resolve_right ‹_›, hB (k - 1) (by omega)]
      · by_cases hl : k + 1 = i
        · rw [if_pos hl, hr (by omega), (ht k hki).2, hl, hBv]
          rw [show i - 1 = k by omega]
        · rw [if_neg hl, (ht k hki).2, hB (k + 1) (by omega)]
  · by_cases hk' : k = i
    · rw [hk', hBv]; exact hvw
    · rw [hB k (by omega)]; exact hpw k (by omega)
  · rw [Nat.add_sub_cancel, htb, hbw]

theorem tri_sum {E : Type} [AddCommMonoid E] {f : ℕ → E} {k : ℕ} (h : ∀ l, l + 1 < k ∨ k + 1 < l → f l = 0) :
    ∀ m, k < m → ∑ l ∈ range m, f l = ((if k = 0 then 0 else f (k - 1)) + f k) + if k + 1 < m then f (k + 1) else 0 := by
  have base : ∑ l ∈ range k, f l = if k = 0 then 0 else f (k - 1) := by
    rcases k with - | k
    · simp
    · rw [sum_range_succ, sum_eq_zero fun l hl => h l (.inl (by have := mem_range.1 hl; omega)), zero_add]
      simp
  intro m
  induction m with
  | zero => intro h; omega
  | succ m ih =>
    intro hm
    by_cases hkm : k = m
    · subst hkm
      rw [sum_range_succ, base, if_neg (show ¬ k + 1 < k + 1 by omega), add_zero]
    · rw [sum_range_succ, ih (by omega)]
      by_cases h1 : k + 1 = m
      · subst h1
        rw [if_neg (show ¬ k + 1 < k + 1 by omega), if_pos (show k + 1 < k + 1 + 1 by omega), add_zero]
      · rw [h m (.inr (by omega)), add_zero, if_pos (show k + 1 < m by omega), if_pos (show k + 1 < m + 1 by omega)]

theorem LiCore.basis {A : Matrix (Fin n) (Fin n) ℝ} {ss m : ℕ} {t : Arr ℝ} {B : ℕ → Fin n → ℝ} {r : Fin n → ℝ}
    (h : LiCore A ss m t B r) (hm : m ≤ ss) (off : ∀ p q, p < ss → q < ss → p + 1 < q ∨ q + 1 < p → t.rm ss p q = 0)
    (symm : ∀ p, p + 1 < m → t.rm ss (p + 1) p = t.rm ss p (p + 1)) : LanczosBasis A m (t.rm ss) B r := by
  have hcols : ∀ k, k < m → A *ᵥ B k = ∑ l ∈ range m, t.rm ss l k • B l + if k + 1 = m then r else 0 := by
    intro k hk
    have e : ∑ l ∈ range m, t.rm ss l k • B l = ∑ l ∈ range m, (if l < ss then t.rm ss l k • B l else 0) :=
      sum_congr rfl fun l hl => by rw [if_pos (by have := mem_range.1 hl; omega)]
    rw [e, tri_sum (f := fun l => if l < ss then t.rm ss l k • B l else 0) (k := k) (fun l hl => ?_) m hk, h.cols k hk]
    · rw [if_pos (show k < ss by omega), if_pos (show k - 1 < ss by omega)]
      by_cases hkm : k + 1 = m
      · rw [if_pos hkm, if_pos hkm, if_neg (show ¬ k + 1 < m by omega), add_zero]
      · rw [if_neg hkm, if_neg hkm, if_pos (show k + 1 < m by omega), if_pos (show k + 1 < ss by omega), add_zero, symm k (by omega)]
    · split
      · rw [off l k ‹_› (by omega) (by omega), zero_smul]
      · rfl
  refine ⟨h.start, h.orth, fun i k hi hk => ?_, fun i k hi hk hik => off i k (by omega) (by omega) hik, hcols, h.perp⟩
  rw [hcols k hk, dotProduct_add, dotProduct_sum]
  have e : B i ⬝ᵥ (if k + 1 = m then r else 0) = 0 := by
    split
    · exact h.perp i hi
    · rw [dotProduct_zero]
  rw [e, add_zero, sum_eq_single i]
  · rw [dotProduct_smul, h.orth i i hi hi, if_pos rfl]; simp
  · intro l hl hli
    rw [dotProduct_smul, h.orth i l hi (mem_range.1 hl), if_neg (Ne.symm hli), smul_zero]
  · intro hni; exact absurd (mem_range.2 hi) hni

end Lis
