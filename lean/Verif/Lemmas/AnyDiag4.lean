import Verif.Lemmas.AnyDiag2

/-! The diagonal scan of one block row of rectangular blocks: correct when the blocks are sorted by column and none that
the diagonal passes through is missing. -/

namespace Lis
open Finset
variable {R α : Type}

/-- the diagonal elements of block row `bi`, blocks of `r` rows and `w` columns -/
def RectDiag (n r w bi lo hi : ℕ) (c base : ℕ → ℕ) (i p : ℕ) : Prop :=
  bi * r ≤ i ∧ i < bi * r + r ∧ i < n ∧ ∃ bj, lo ≤ bj ∧ bj < hi ∧ c bj = i / w ∧ p = base bj + i % w * r + (i - bi * r)

theorem RectDiag.uniq {n r w bi lo hi : ℕ} {c base : ℕ → ℕ} (hsort : ∀ k l, lo ≤ k → k < l → l < hi → c k < c l)
    {i p p' : ℕ} (h : RectDiag n r w bi lo hi c base i p) (h' : RectDiag n r w bi lo hi c base i p') : p = p' := by
  obtain ⟨-, -, -, b, b1, b2, b3, rfl⟩ := h
  obtain ⟨-, -, -, b', b1', b2', b3', rfl⟩ := h'
  have : b = b' := by
    rcases Nat.lt_trichotomy b b' with h | h | h
    · have := hsort b b' b1 h b2'; omega
    · exact h
    · have := hsort b' b b1' h b2; omega
  rw [this]

theorem Ok_blockDiagScan_rect {n r w bi lo hi : ℕ} {blk : ℕ → Option (ℕ × ℕ × ℕ)} {c base : ℕ → ℕ} (hr : 0 < r)
    (hw : 0 < w) (hblk : ∀ bj, lo ≤ bj → bj < hi → Ok (blk bj) fun x => x = (c bj, w, base bj))
    (hsort : ∀ k l, lo ≤ k → k < l → l < hi → c k < c l)
    (hall : ∀ i, bi * r ≤ i → i < bi * r + r → i < n → ∃ bj, lo ≤ bj ∧ bj < hi ∧ c bj = i / w)
    {z : Arr α} {q : ℕ → ℕ → ℕ} {g : ℕ → ℕ → α → α} {f : ℕ → ℕ → Arr α → Option (Arr α)}
    (hinj : PairsInj (RectDiag n r w bi lo hi c base) q) (hf : PairStep (RectDiag n r w bi lo hi c base) q g z.size f) :
    Ok (blockDiagScan n r (bi * r) lo hi blk z f) (Upd z (Pairs (RectDiag n r w bi lo hi c base) q g)) := by
  -- rows up to (not including) `i` are done
  obtain ⟨I, hI⟩ : ∃ I : ℕ × ℕ × Arr α → Prop, I = fun s => s.1 = bi * r + s.2.1 ∧ s.2.1 ≤ r ∧
    Upd z (Pairs (fun i p => i < s.1 ∧ RectDiag n r w bi lo hi c base i p) q g) s.2.2 := ⟨_, rfl⟩
  have hfin : ∀ s, I s → (s.2.1 < r → n ≤ s.1) → Upd z (Pairs (RectDiag n r w bi lo hi c base) q g) s.2.2 := by
    intro s hs hd
    rw [hI] at hs
    obtain ⟨h1, h2, h3⟩ := hs
    refine h3.pcongr fun i p => ⟨fun h => ⟨?_, h⟩, fun h => h.2⟩
    obtain ⟨a1, a2, a3, -⟩ := h
    by_cases hk : s.2.1 < r
    · have := hd hk; omega
    · omega
  unfold blockDiagScan
  rw [Ok_bind]
  refine Ok_loopB (fun bj s => I s ∧ (s.2.1 < r → s.1 < n → ∃ t, bj ≤ t ∧ lo ≤ t ∧ t < hi ∧ c t = s.1 / w))
    (Q := fun s => Ok (pure s.2.2) (Upd z (Pairs (RectDiag n r w bi lo hi c base) q g))) ?_ ?_ ?_
  · refine ⟨?_, fun _ h2 => ?_⟩
    · rw [hI]
      refine ⟨rfl, Nat.zero_le _, Upd.none _ _ _ ?_⟩
      rintro i p ⟨h1, h2, -⟩
      simp only at h1; omega
    · obtain ⟨t, t1, t2, t3⟩ := hall (bi * r) le_rfl (by omega) h2
      exact ⟨t, t1, t1, t2, t3⟩
  · rintro bj s h1 h2 ⟨hs, ht⟩
    rw [Ok_bind]
    refine (hblk bj h1 h2).mono ?_
    rintro _ rfl
    simp only [Ok_bind, Ok_ite]
    -- what has to hold after the block
    have hnext : ∀ s' : ℕ × ℕ × Arr α, I s' →
        (s'.2.1 < r → s'.1 < n → ∃ t, bj + 1 ≤ t ∧ lo ≤ t ∧ t < hi ∧ c t = s'.1 / w) →
        Ok (pure (decide (s'.2.1 = r), s')) fun p =>
          if p.1 = true then Ok (pure p.2.2.2) (Upd z (Pairs (RectDiag n r w bi lo hi c base) q g))
          else I p.2 ∧ (p.2.2.1 < r → p.2.1 < n → ∃ t, bj + 1 ≤ t ∧ lo ≤ t ∧ t < hi ∧ c t = p.2.1 / w) := by
      intro s' hs' hn'
      rw [Ok_pure]
      simp only [decide_eq_true_eq]
      split
      · rename_i he
        rw [Ok_pure]
        exact hfin s' hs' fun h => by omega
      · exact ⟨hs', hn'⟩
    refine ⟨fun hc => ?_, fun hc => ?_⟩
    · obtain ⟨j0, hj0⟩ : ∃ j0, j0 = s.1 % w := ⟨_, rfl⟩
      have hdiv : s.1 / w = c bj := by
        apply Nat.le_antisymm
        · exact Nat.lt_succ_iff.1 ((Nat.div_lt_iff_lt_mul hw).2 hc.2)
        · exact (Nat.le_div_iff_mul_le hw).2 hc.1
      have hs1 : s.1 = c bj * w + j0 := by rw [hj0, ← hdiv, Nat.div_add_mod']
      have hj0w : j0 < w := hj0 ▸ Nat.mod_lt _ hw
      rw [← hj0]
      have hstop : ∀ s' : ℕ × ℕ × Arr α, I s' → (s'.2.1 < r → s'.1 < n → s'.1 = (c bj + 1) * w) →
          Ok (pure (decide (s'.2.1 = r), s')) fun p =>
          if p.1 = true then Ok (pure p.2.2.2) (Upd z (Pairs (RectDiag n r w bi lo hi c base) q g))
          else I p.2 ∧ (p.2.2.1 < r → p.2.1 < n → ∃ t, bj + 1 ≤ t ∧ lo ≤ t ∧ t < hi ∧ c t = p.2.1 / w) := by
        intro s' hs' he
        refine hnext s' hs' fun h3 h4 => ?_
        have he := he h3 h4
        have hs'' := hs'
        rw [hI] at hs''
        obtain ⟨t, t1, t2, t3⟩ := hall s'.1 (by omega) (by omega) h4
        refine ⟨t, ?_, t1, t2, t3⟩
        have hct : c t = c bj + 1 := by rw [t3, he, Nat.mul_div_cancel _ hw]
        rcases Nat.lt_trichotomy t bj with h | h | h
        · have := hsort t bj t1 h h2; omega
        · subst h; omega
        · exact h
      refine Ok_loopB (fun j (s' : ℕ × ℕ × Arr α) => I s' ∧ s'.1 = c bj * w + j) (Q := fun s => _) ⟨hs, hs1⟩ ?_ ?_
      · rintro j ⟨i, k, y⟩ - hjw ⟨hs', hij⟩
        simp only at hij
        simp only [Ok_ite]
        refine ⟨fun hlt => ?_, fun hlt => ?_⟩
        · simp only [Ok_bind]
          have hs'' := hs'
          rw [hI] at hs'
          obtain ⟨i1, i2, i3⟩ := hs'
          simp only at i1 i2 i3
          have hiw : i / w = c bj := by
            rw [hij, Nat.mul_comm, Nat.mul_add_div hw, Nat.div_eq_of_lt hjw, Nat.add_zero]
          have him : i % w = j := by rw [hij, Nat.mul_comm, Nat.mul_add_mod, Nat.mod_eq_of_lt hjw]
          have hP : RectDiag n r w bi lo hi c base i (base bj + j * r + k) :=
            ⟨by omega, by omega, hlt.2, bj, h1, h2, hiw.symm, by rw [him]; omega⟩
          refine (hf.upd hP i3.1).mono ?_
          intro y' hy'
          simp only [Ok_pure, Bool.false_eq_true, if_false]
          refine ⟨?_, by omega⟩
          rw [hI]
          refine ⟨by simp only; omega, by simp only; omega, ?_⟩
          simp only
          refine Upd.add hinj hP (fun i p h => h.2) (fun h => absurd h.1 (lt_irrefl _)) ?_ i3 hy'
          intro i' p'
          constructor
          · rintro ⟨a1, a2⟩
            by_cases hii : i' = i
            · subst hii; exact Or.inr ⟨rfl, a2.uniq hsort hP⟩
            · exact Or.inl ⟨by omega, a2⟩
          · rintro (⟨a1, a2⟩ | ⟨rfl, rfl⟩)
            · exact ⟨by omega, a2⟩
            · exact ⟨by omega, hP⟩
        · simp only [Ok_pure, if_true]
          simpa only [Ok_pure] using hstop (i, k, y) hs' fun h3 h4 => absurd ⟨h3, h4⟩ hlt
      · rintro s' ⟨hs', hi⟩
        refine hstop s' hs' fun _ _ => ?_
        rw [hi, show max j0 w = w by omega, Nat.add_mul, Nat.one_mul]
    · rw [Ok_pure]
      refine hnext s hs fun h3 h4 => ?_
      obtain ⟨t, t0, t1, t2, t3⟩ := ht h3 h4
      refine ⟨t, ?_, t1, t2, t3⟩
      rcases Nat.lt_or_ge bj t with h | h
      · exact h
      · exfalso
        obtain rfl : t = bj := by omega
        apply hc
        rw [t3]
        exact ⟨Nat.div_mul_le_self _ _, by rw [Nat.add_mul, Nat.one_mul]; exact Nat.lt_div_mul_add hw⟩
  · rintro s ⟨hs, ht⟩
    rw [Ok_pure]
    refine hfin s hs fun hk => ?_
    by_contra hn
    obtain ⟨t, t0, t1, t2, t3⟩ := ht hk (by omega)
    omega

end Lis
