import Verif.Lemmas.LanczosExact
import Verif.Lemmas.EsolverCgExact
import Verif.Props.GramSchmidt

/-!
# C60: the Lanczos eigensolver `lis_eli`
-/

namespace Lis
open Matrix Finset

section any
variable {R S : Type} {n : ℕ}
variable [Zero R] [One R] [Add R] [Neg R] [Mul R] [Div R] [Star R] [RealOps S] [EigOps R S]

/-- **C60.** In any arithmetic and for any matrix, the first phase of `lis_eli` with `-ss` at least 1 makes at most `ss-1`
passes, accesses `t` inside its `ss*ss` elements, leaves a tridiagonal matrix and changes no history;
**row and column `m ≥` (number of passes) have diagonal 0**, in particular the last diagonal element of `t` is always 0. -/
theorem liTridiag_shape (K : Kit R S n) (lt : S → S → Bool) (junk : ℕ → R) (tol : S) (ss : ℕ) (hss : 1 ≤ ss) (s : MSt R S n) :
    Ok ((liTridiag lt junk tol ss).run K s) fun r => r.1.1 ≤ ss - 1 ∧ r.1.2.size = ss * ss ∧ r.2.hist = s.hist ∧
      (∀ p q, p < ss → q < ss → p + 1 < q ∨ q + 1 < p → r.1.2.rm ss p q = 0) ∧
      (∀ p, p < ss → r.1.1 ≤ p → r.1.2.rm ss p p = 0) := by
  unfold liTridiag
  simp only [vSetAll, vNrm2]
  refine Ok_vop fun w _ => Ok_vop fun w' _ => Ok_norm fun nrm2 _ => ?_
  obtain ⟨t, ht, h1, h2⟩ := liZero_spec ss (Arr.malloc (ss * ss) junk) (le_of_eq rfl)
  rw [ht]
  refine Ok_pbind ⟨_, rfl, ?_⟩
  refine Ok_liWhile (fun i t s' => i < ss ∧ LiShape ss i t ∧ s'.hist = s.hist) (fun i t s' => LiBroken ss i t ∧ s'.hist = s.hist)
    (ss - 1) 0 t _ ⟨by omega, ⟨h1, fun p q hp hq _ => h2 _ (li_idx hp hq), fun p hp => ?_, fun p hp _ => h2 _ (li_idx hp hp),
      fun p hp _ => h2 _ (li_idx (by omega) hp)⟩, rfl⟩ ?_ ?_ ?_
  · exact (h2 _ (li_idx hp (by omega))).trans (h2 _ (li_idx (by omega) hp)).symm
  · rintro j t s' - hj ⟨-, hS, hh⟩
    refine (liStep_ok K lt tol ss nrm2 j t s' hS.sz (by omega)).mono ?_
    rintro ⟨⟨b, t'⟩, s''⟩ ⟨e1, v0, w1, w2, v1, a, b', -, -, -, -, -, -, -, e2, e3⟩
    simp only at e1 e2 e3 ⊢
    refine ⟨fun h => ?_, fun h => ?_⟩
    · rw [e3, if_pos (by rw [← e2]; exact h)]
      exact ⟨hS.brk (by omega) _ _, e1.trans hh⟩
    · rw [e3, if_neg (by rw [← e2, h]; decide)]
      exact ⟨by omega, hS.step (by omega) _ _, e1.trans hh⟩
  · rintro t s' ⟨-, hS, hh⟩
    rw [Nat.zero_add] at hS ⊢
    exact ⟨le_rfl, hS.sz, hh, hS.off, hS.diag0⟩
  · rintro j t s' - hj ⟨hS, hh⟩
    exact ⟨by simpa using hj, hS.sz, hh, hS.off, hS.diag0⟩

end any

section exact
variable {n : ℕ}

/-- comparison of real numbers -/
noncomputable def liLt (a b : ℝ) : Bool := decide (a < b)

/-- **C60.** Real arithmetic, `A` symmetric, `tol > 0`: after the first phase with `m` passes the vectors
`v[1],…,v[m]` are orthonormal, start with the normalized constant vector, and the leading block of order `m` of `t` is
`Vᵀ A V`; `‖r‖₂` is the element `(m-1,m)`; the loop stopped early only if that is below `tol`. -/
theorem liTridiag_exact (K : Kit ℝ ℝ n) (hK : K.Euclid) (A : Matrix (Fin n) (Fin n) ℝ) (hA : A.IsSymm)
    (hmv : ∀ x, K.mv x = A *ᵥ x) (hn : 0 < n) (junk : ℕ → ℝ) (tol : ℝ) (ht : 0 < tol) (ss : ℕ) (hss : 2 ≤ ss)
    (s : MSt ℝ ℝ n) :
    Ok ((liTridiag liLt junk tol ss).run K s) fun r => ∃ m, m = r.1.1 ∧ 1 ≤ m ∧ m ≤ ss - 1 ∧
      LanczosBasis A m (r.1.2.rm ss) (fun k => r.2.h (liV (k + 1))) (r.2.h liR) ∧
      nrm (r.2.h liR) = r.1.2.rm ss (m - 1) m ∧ (∀ k, k + 1 < m → tol ≤ r.1.2.rm ss k (k + 1)) ∧
      (m = ss - 1 ∨ nrm (r.2.h liR) < tol) := by
  have hnrm : ∀ x, K.nrm2 x = nrm x := fun x => hK.nrm2 x
  unfold liTridiag
  simp only [vSetAll, vNrm2]
  refine Ok_vop fun w hw => Ok_vop fun w' hw' => Ok_norm fun nrm2 hnr => ?_
  obtain ⟨t, hz, h1, h2⟩ := liZero_spec ss (Arr.malloc (ss * ss) junk) (le_of_eq rfl)
  rw [hz]
  refine Ok_pbind ⟨_, rfl, ?_⟩
  simp only [VOp.dst, VOp.val, VNorm.run, Function.update_self] at hw hw' hnr ⊢
  rw [hw', hnrm] at hnr
  have hzero : LiShape ss 0 t := ⟨h1, fun p q hp hq _ => h2 _ (li_idx hp hq),
    fun p hp => (h2 _ (li_idx hp (by omega))).trans (h2 _ (li_idx (by omega) hp)).symm, fun p hp _ => h2 _ (li_idx hp hp),
    fun p hp _ => h2 _ (li_idx (by omega) hp)⟩
  refine Ok_liWhile
    (fun i t s' => i < ss ∧ LiShape ss i t ∧ LiCore A ss i t (fun k => s'.h (liV (k + 1))) (s'.h liR) ∧
      ∀ k, k < i → tol ≤ t.rm ss k (k + 1))
    (fun i t s' => i < ss ∧ LiBroken ss i t ∧ LiCore A ss i t (fun k => s'.h (liV (k + 1))) (s'.h liR) ∧
      (∀ k, k + 1 < i → tol ≤ t.rm ss k (k + 1)) ∧ t.rm ss (i - 1) i < tol)
    (ss - 1) 0 t _ ⟨by omega, hzero, ⟨fun _ => by simp only [Function.update_self]; exact hw', fun h => by omega,
      fun _ _ h => by omega, fun _ h => by omega, fun _ h => by omega, fun h => by omega⟩, fun _ h => by omega⟩ ?_ ?_ ?_
  · rintro j t s' - hj ⟨-, hS, hC, hpos⟩
    refine (liStep_ok K liLt tol ss nrm2 j t s' hS.sz (by omega)).mono ?_
    rintro ⟨⟨brk, t'⟩, s''⟩ ⟨-, v0, w1, w2, v1, a, b, f1, f2, f3, f4, f5, f6, f7, e2, e3⟩
    simp only at f6 e2 e3 ⊢
    have hidx : j * ss + j + 1 = j * ss + (j + 1) := by omega
    -- the new elements of t
    have key : ∀ p q, q < ss → (p = q ∨ q = p + 1) → t'.rm ss p q =
        if p = j ∧ q = j + 1 then b else if p = j ∧ q = j then a else t.rm ss p q := by
      intro p q hq hpq
      rw [e3]
      split
      · rw [hidx, Arr.rm_set (by omega) hq, Arr.rm_set (by omega) hq]
      · rw [hidx, Arr.rm_set (by omega) hq, Arr.rm_set (by omega) hq, Arr.rm_set (by omega) hq, if_neg (by omega)]
    have hneR : ∀ k, liV k ≠ liR := fun k => by simp only [liV, liR]; omega
    have hC' : LiCore A ss (j + 1) t' (fun k => s''.h (liV (k + 1))) (s''.h liR) := by
      have hsub : w1 = A *ᵥ v0 - if j = 0 then 0 else t.rm ss (j - 1) j • s'.h (liV j) := by
        rw [f2]; unfold liW1
        split
        · rw [hmv, sub_zero]
        · funext l
          simp only [hmv, Pi.sub_apply, Pi.smul_apply, smul_eq_mul, liB, Arr.rm]
          ring
      have hjj : (if j = 0 then (0 : Fin n → ℝ) else t.rm ss (j - 1) j • s'.h (liV j)) =
          if j = 0 then 0 else t.rm ss (j - 1) j • s'.h (liV (j - 1 + 1)) := by
        split
        · rfl
        · rw [show j - 1 + 1 = j by omega]
      refine hC.step hA hn (v := v0) (a := a) (b := b) (fun h => ?_) ?_ ?_ ?_ ?_ ?_ ?_ ?_ ?_ ?_
      · have := hpos (j - 1) (by omega)
        rw [show j - 1 + 1 = j by omega] at this
        linarith
      · rw [f1]; unfold liV0
        split
        · rw [hnr]; rfl
        · rfl
      · rw [f3, hK.dot, hsub, hjj]
      · rw [f6, Function.update_self, f4, ← hjj, ← hsub]
        funext l
        simp only [Pi.sub_apply, Pi.smul_apply, smul_eq_mul]
        ring
      · rw [f6, Function.update_self, f5, hnrm]; rfl
      · intro k hk
        simp only [f6]
        rw [Function.update_of_ne (hneR _), Function.update_of_ne (by simp only [liV]; omega)]
      · intro hp
        simp only [f6]
        rw [Function.update_of_ne (hneR _), Function.update_self]
        refine f7 fun k hk1 hk2 => ?_
        have := hp (k - 1) (by omega)
        simp only [show k - 1 + 1 = k by omega] at this
        rw [hK.dot, dotProduct_comm, this]
        funext l; simp
      · rw [key j j (by omega) (.inl rfl), if_neg (by omega), if_pos ⟨rfl, rfl⟩]
      · rw [key j (j + 1) (by omega) (.inr rfl), if_pos ⟨rfl, rfl⟩]
      · intro k hk
        rw [key k k (by omega) (.inl rfl), key k (k + 1) (by omega) (.inr rfl), if_neg (by omega), if_neg (by omega),
          if_neg (by omega), if_neg (by omega)]
        exact ⟨rfl, rfl⟩
    have hb0 : 0 ≤ b := by rw [f5, hnrm]; exact nrm_nonneg _
    have hab : (EigOps.fabs b : ℝ) = b := abs_of_nonneg hb0
    have hold : ∀ k, k < j → tol ≤ t'.rm ss k (k + 1) := fun k hk => by
      rw [key k (k + 1) (by omega) (.inr rfl), if_neg (by omega), if_neg (by omega)]
      exact hpos k hk
    refine ⟨fun h => ?_, fun h => ?_⟩
    · rw [e2, hab] at h
      refine ⟨by omega, ?_, hC', fun k hk => hold k (by omega), ?_⟩
      · rw [e3, if_pos (by rw [hab]; exact h)]; exact hS.brk (by omega) _ _
      · rw [Nat.add_sub_cancel, key j (j + 1) (by omega) (.inr rfl), if_pos ⟨rfl, rfl⟩]
        simpa [liLt] using h
    · rw [e2, hab] at h
      refine ⟨by omega, ?_, hC', fun k hk => ?_⟩
      · rw [e3, if_neg (by rw [hab, h]; decide)]; exact hS.step (by omega) _ _
      · by_cases hkj : k = j
        · subst hkj
          rw [key k (k + 1) (by omega) (.inr rfl), if_pos ⟨rfl, rfl⟩]
          simpa [liLt] using h
        · exact hold k (by omega)
  · rintro t s' ⟨-, hS, hC, hpos⟩
    rw [Nat.zero_add] at hS hC hpos ⊢
    exact ⟨_, rfl, (show 1 ≤ ss - 1 by omega), by simp only; omega, hC.basis (by omega) hS.off fun p hp => hS.symm p (by omega),
      hC.norm (by omega), fun k hk => hpos k (by simp only at hk; omega), .inl rfl⟩
  · rintro j t s' hj hj' ⟨-, hS, hC, hpos, hb⟩
    refine ⟨_, rfl, hj, by simp only; omega, hC.basis (by omega) hS.off hS.symm, hC.norm hj, hpos, .inr ?_⟩
    rw [hC.norm hj]; exact hb

/-- **C60.** What that basis is worth: for every eigenpair `T y = θ y` of the leading block of order `m`, `A` has an
eigenvalue within `‖r‖ |y_{m-1}| / ‖y‖` of `θ`. -/
theorem LanczosBasis.enclosure {A : Matrix (Fin n) (Fin n) ℝ} (hA : A.IsSymm) {m : ℕ} {T : ℕ → ℕ → ℝ}
    {V : ℕ → Fin n → ℝ} {r : Fin n → ℝ} (h : LanczosBasis A m T V r) (y : ℕ → ℝ) (th : ℝ) (hm : 0 < m)
    (hy : ∀ i, i < m → ∑ k ∈ range m, T i k * y k = th * y i) (hne : ∃ i, i < m ∧ y i ≠ 0) :
    ∃ (mu : ℝ) (w : Fin n → ℝ), w ≠ 0 ∧ A *ᵥ w = mu • w ∧
      |mu - th| * √(∑ k ∈ range m, y k ^ 2) ≤ |y (m - 1)| * nrm r := by
  obtain ⟨x, hx⟩ : ∃ x, x = ∑ k ∈ range m, y k • V k := ⟨_, rfl⟩
  have hxx : x ⬝ᵥ x = ∑ k ∈ range m, y k ^ 2 := by
    rw [hx, sum_dotProduct]
    refine sum_congr rfl fun k hk => ?_
    rw [dotProduct_sum, sum_eq_single k]
    · rw [smul_dotProduct, dotProduct_smul, h.orth k k (mem_range.1 hk) (mem_range.1 hk), if_pos rfl]
      simp only [smul_eq_mul]; ring
    · intro l hl hlk
      rw [smul_dotProduct, dotProduct_smul, h.orth k l (mem_range.1 hk) (mem_range.1 hl), if_neg (Ne.symm hlk)]
      simp
    · intro hk'; exact absurd hk hk'
  have hAx : A *ᵥ x - th • x = y (m - 1) • r := by
    have e1 : A *ᵥ x = ∑ k ∈ range m, y k • (∑ l ∈ range m, T l k • V l) + y (m - 1) • r := by
      rw [hx, Matrix.mulVec_sum]
      simp only [Matrix.mulVec_smul]
      rw [sum_congr rfl fun k hk => by rw [h.cols k (mem_range.1 hk)]]
      simp only [smul_add, sum_add_distrib]
      congr 1
      rw [sum_eq_single (m - 1)]
      · rw [if_pos (by omega)]
      · intro k hk hkm
        rw [if_neg (by omega), smul_zero]
      · intro hk; exact absurd (mem_range.2 (by omega)) hk
    have e2 : ∑ k ∈ range m, y k • (∑ l ∈ range m, T l k • V l) = th • x := by
      simp only [smul_sum, smul_smul]
      rw [sum_comm, hx, smul_sum]
      refine sum_congr rfl fun l hl => ?_
      rw [← sum_smul, smul_smul]
      congr 1
      rw [← hy l (mem_range.1 hl)]
      exact sum_congr rfl fun k _ => mul_comm _ _
    rw [e1, e2, add_sub_cancel_left]
  have hx0 : x ≠ 0 := by
    intro h0
    rw [h0, dotProduct_zero] at hxx
    obtain ⟨i, hi, hyi⟩ := hne
    have := (sum_eq_zero_iff_of_nonneg (fun k _ => sq_nonneg (y k))).1 hxx.symm i (mem_range.2 hi)
    exact hyi (by simpa using this)
  obtain ⟨mu, w, h1, h2, h3⟩ := symm_eigenvalue_near hA x hx0 th
  refine ⟨mu, w, h1, h2, ?_⟩
  rw [hAx, nrm_smul] at h3
  rw [← hxx]
  exact h3

end exact
end Lis
