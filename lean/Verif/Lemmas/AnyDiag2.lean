import Verif.Lemmas.AnyDiag

/-! The diagonal scan of the block formats, for square blocks of one size. -/

namespace Lis
open Finset
variable {R α : Type}

/-- the diagonal elements of block row `bi` -/
def BlkDiag (n b bi lo hi : ℕ) (c base : ℕ → ℕ) (i p : ℕ) : Prop :=
  ∃ bj t, lo ≤ bj ∧ bj < hi ∧ c bj = bi ∧ t < b ∧ bi * b + t < n ∧ i = bi * b + t ∧ p = base bj + t * b + t

theorem Ok_blockDiagScan {n b bi lo hi : ℕ} {blk : ℕ → Option (ℕ × ℕ × ℕ)} {c base : ℕ → ℕ} (hb : 0 < b)
    (hblk : ∀ bj, lo ≤ bj → bj < hi → Ok (blk bj) fun r => r = (c bj, b, base bj))
    (huniq : ∀ k l, lo ≤ k → k < hi → lo ≤ l → l < hi → c k = c l → k = l)
    {z : Arr α} {q : ℕ → ℕ → ℕ} {g : ℕ → ℕ → α → α} {f : ℕ → ℕ → Arr α → Option (Arr α)}
    (hinj : PairsInj (BlkDiag n b bi lo hi c base) q) (hf : PairStep (BlkDiag n b bi lo hi c base) q g z.size f) :
    Ok (blockDiagScan n b (bi * b) lo hi blk z f) (Upd z (Pairs (BlkDiag n b bi lo hi c base) q g)) := by
  obtain ⟨Dn, hDn⟩ : ∃ Dn : ℕ × ℕ × Arr α → Prop, Dn = fun s => s.2.1 = min b (n - bi * b) ∧ s.1 = bi * b + s.2.1 ∧
    Upd z (Pairs (BlkDiag n b bi lo hi c base) q g) s.2.2 := ⟨_, rfl⟩
  unfold blockDiagScan
  rw [Ok_bind]
  refine Ok_loopB (fun bj s => (s = (bi * b, 0, z) ∧ ∀ k, lo ≤ k → k < bj → c k ≠ bi) ∨
      ((∃ k, lo ≤ k ∧ k < bj ∧ c k = bi) ∧ Dn s))
    (Q := fun s => Ok (pure s.2.2) (Upd z (Pairs (BlkDiag n b bi lo hi c base) q g)))
    (Or.inl ⟨rfl, fun k k1 k2 => by omega⟩) ?_ ?_
  · intro bj s h1 h2 hs
    rw [Ok_bind]
    refine (hblk bj h1 h2).mono ?_
    rintro _ rfl
    simp only [Ok_bind, Ok_ite]
    rcases hs with ⟨rfl, hno⟩ | ⟨⟨k0, k1, k2, k3⟩, hD⟩
    · simp only
      have hfirst : (bi * b ≥ c bj * b ∧ bi * b < (c bj + 1) * b) ↔ c bj = bi := by
        constructor
        · rintro ⟨h3, h4⟩
          have := Nat.le_of_mul_le_mul_right h3 hb
          have := Nat.lt_of_mul_lt_mul_right h4
          omega
        · rintro h3; rw [h3]; refine ⟨le_rfl, ?_⟩; rw [Nat.add_mul]; omega
      refine ⟨fun hc => ?_, fun hc => ?_⟩
      · have hc' := hfirst.1 hc
        rw [Nat.mul_mod_left]
        refine Ok_loopB (fun j (s : ℕ × ℕ × Arr α) => s.2.1 = j ∧ s.1 = bi * b + j ∧ j ≤ n - bi * b ∧
          Upd z (Pairs (fun i p => ∃ t, t < j ∧ bi * b + t < n ∧ i = bi * b + t ∧ p = base bj + t * b + t) q g) s.2.2)
          (Q := fun s => _) ?_ ?_ ?_
        · refine ⟨rfl, rfl, Nat.zero_le _, Upd.none _ _ _ ?_⟩
          rintro i p ⟨t, t1, -⟩; omega
        · rintro j ⟨i, k, y⟩ - hj ⟨hk, hi, hn, hy⟩
          simp only at hk hi hy
          subst hk hi
          simp only [Ok_ite]
          refine ⟨fun hlt => ?_, fun hlt => ?_⟩
          · simp only [Ok_bind]
            have hP : BlkDiag n b bi lo hi c base (bi * b + k) (base bj + k * b + k) :=
              ⟨bj, k, h1, h2, hc', hj, hlt.2, rfl, rfl⟩
            refine (hf.upd hP hy.1).mono ?_
            intro y' hy'
            simp only [Ok_pure, Bool.false_eq_true, if_false]
            refine ⟨trivial, by omega, by omega, ?_⟩
            refine Upd.add hinj hP ?_ ?_ ?_ hy hy'
            · rintro i p ⟨t, t1, t2, t3, t4⟩; exact ⟨bj, t, h1, h2, hc', by omega, t2, t3, t4⟩
            · rintro ⟨t, t1, t2, t3, t4⟩; omega
            · intro i' p'
              constructor
              · rintro ⟨t, t1, t2, t3, t4⟩
                by_cases ht : t = k
                · subst ht; exact Or.inr ⟨t3, t4⟩
                · exact Or.inl ⟨t, by omega, t2, t3, t4⟩
              · rintro (⟨t, t1, t2, t3, t4⟩ | ⟨rfl, rfl⟩)
                · exact ⟨t, by omega, t2, t3, t4⟩
                · exact ⟨k, by omega, hlt.2, rfl, rfl⟩
          · simp only [Ok_pure, if_true]
            have hDn' : Dn (bi * b + k, k, y) := by
              rw [hDn]
              refine ⟨by simp only; omega, rfl, hy.pcongr fun i p => ?_⟩
              constructor
              · rintro ⟨bj', t, b1, b2, b3, t1, t2, t3, t4⟩
                obtain rfl := huniq bj' bj b1 b2 h1 h2 (b3.trans hc'.symm)
                exact ⟨t, by omega, t2, t3, t4⟩
              · rintro ⟨t, t1, t2, t3, t4⟩; exact ⟨bj, t, h1, h2, hc', by omega, t2, t3, t4⟩
            split
            · rw [hDn] at hDn'; exact hDn'.2.2
            · exact Or.inr ⟨⟨bj, h1, by omega, hc'⟩, hDn'⟩
        · rintro ⟨i, k, y⟩ ⟨hk, hi, hn, hy⟩
          simp only at hk hi hy
          rw [show max 0 b = b by omega] at hk hi hn hy
          subst hk hi
          simp only [Ok_pure]
          have hDn' : Dn (bi * k + k, k, y) := by
            rw [hDn]
            refine ⟨by simp only; omega, rfl, hy.pcongr fun i p => ?_⟩
            constructor
            · rintro ⟨bj', t, b1, b2, b3, t1, t2, t3, t4⟩
              obtain rfl := huniq bj' bj b1 b2 h1 h2 (b3.trans hc'.symm)
              exact ⟨t, by omega, t2, t3, t4⟩
            · rintro ⟨t, t1, t2, t3, t4⟩; exact ⟨bj, t, h1, h2, hc', by omega, t2, t3, t4⟩
          split
          · rw [hDn] at hDn'; exact hDn'.2.2
          · exact Or.inr ⟨⟨bj, h1, by omega, hc'⟩, hDn'⟩
      · simp only [Ok_pure]
        rw [if_neg (by simp only [decide_eq_true_eq]; omega)]
        refine Or.inl ⟨trivial, fun k k1 k2 => ?_⟩
        rcases Nat.lt_or_ge k bj with h3 | h3
        · exact hno k k1 h3
        · obtain rfl : k = bj := by omega
          exact fun h => hc (hfirst.2 h)
    · have hfin : ∀ s' : ℕ × ℕ × Arr α, s' = s → Ok (pure (decide (s'.2.1 = b), s')) fun p =>
          if p.1 = true then Ok (pure p.2.2.2) (Upd z (Pairs (BlkDiag n b bi lo hi c base) q g))
          else (p.2 = (bi * b, 0, z) ∧ ∀ k, lo ≤ k → k < bj + 1 → c k ≠ bi) ∨
            ((∃ k, lo ≤ k ∧ k < bj + 1 ∧ c k = bi) ∧ Dn p.2) := by
        rintro _ rfl
        rw [Ok_pure]
        simp only
        split
        · rw [hDn] at hD; simpa using hD.2.2
        · exact Or.inr ⟨⟨k0, k1, by omega, k3⟩, hD⟩
      refine ⟨fun hc => ?_, fun hc => by rw [Ok_pure]; exact hfin s rfl⟩
      refine Ok_loopB (fun j s' => s' = s) (Q := fun s' => _) rfl ?_ ?_
      · rintro j s' - hj hs'
        simp only [Ok_ite]
        refine ⟨fun hlt => ?_, fun hlt => ?_⟩
        · rw [hDn] at hD; rw [hs'] at hlt; omega
        · simpa only [Ok_pure, if_true] using hfin s' hs'
      · rintro s' rfl; exact hfin s' rfl
  · rintro s (⟨rfl, hno⟩ | ⟨-, hD⟩)
    · simp only [Ok_pure]
      refine Upd.none _ _ _ ?_
      rintro i p ⟨bj, t, b1, b2, b3, -⟩
      exact hno bj b1 (by omega) b3
    · rw [hDn] at hD; simpa only [Ok_pure] using hD.2.2

end Lis
