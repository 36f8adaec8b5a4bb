import Verif.Model.Sort
import Mathlib.Logic.Equiv.Basic
import Mathlib.Order.Basic
import Mathlib.Algebra.Order.Group.Int

/-! Correctness of the common quicksort. -/

namespace Lis
variable {κ σ τ ρ : Type}

/-- `s'` is `s` with the positions of `[is,ie]` permuted, all else unchanged -/
def Permuted (obs : σ → ℤ → τ) (s s' : σ) (is ie : ℤ) : Prop :=
  ∃ f : Equiv.Perm ℤ, (∀ k, ¬ (is ≤ k ∧ k ≤ ie) → f k = k) ∧ ∀ k, 0 ≤ k → obs s' k = obs s (f k)

theorem perm_stays {f : Equiv.Perm ℤ} {is ie : ℤ} (hf : ∀ k, ¬ (is ≤ k ∧ k ≤ ie) → f k = k) {k : ℤ}
    (h : is ≤ k ∧ k ≤ ie) : is ≤ f k ∧ f k ≤ ie := by
  by_contra hc
  have h1 := hf (f k) hc
  have h2 := f.injective h1
  rw [h2] at hc
  exact hc h

theorem Permuted.refl (obs : σ → ℤ → τ) (s : σ) (is ie : ℤ) : Permuted obs s s is ie :=
  ⟨Equiv.refl _, fun _ _ => rfl, fun _ _ => rfl⟩

theorem Permuted.mono {obs : σ → ℤ → τ} {s s' : σ} {is ie is' ie' : ℤ} (h : Permuted obs s s' is ie)
    (h1 : is' ≤ is) (h2 : ie ≤ ie') : Permuted obs s s' is' ie' := by
  obtain ⟨f, hf, ho⟩ := h
  exact ⟨f, fun k hk => hf k (by omega), ho⟩

theorem Permuted.trans {obs : σ → ℤ → τ} {s s' s'' : σ} {is ie : ℤ} (h0 : 0 ≤ is) (h : Permuted obs s s' is ie)
    (h' : Permuted obs s' s'' is ie) : Permuted obs s s'' is ie := by
  obtain ⟨f, hf, ho⟩ := h
  obtain ⟨g, hg, ho'⟩ := h'
  refine ⟨g.trans f, fun k hk => ?_, fun k hk => ?_⟩
  · rw [Equiv.trans_apply, hg k hk, hf k hk]
  · rw [ho' k hk, Equiv.trans_apply, ho]
    by_cases hc : is ≤ k ∧ k ≤ ie
    · have := perm_stays hg hc; omega
    · rw [hg k hc]; exact hk

theorem Permuted.swap {obs : σ → ℤ → τ} {s s' : σ} {is ie x y : ℤ} (hx : is ≤ x ∧ x ≤ ie) (hy : is ≤ y ∧ y ≤ ie)
    (h : ∀ k, 0 ≤ k → obs s' k = obs s (Equiv.swap x y k)) : Permuted obs s s' is ie :=
  ⟨Equiv.swap x y, fun k hk => Equiv.swap_apply_of_ne_of_ne (by rintro rfl; exact hk hx) (by rintro rfl; exact hk hy), h⟩

/-- a bound on a range survives a permutation of that range -/
theorem Permuted.forall {obs : σ → ℤ → τ} {s s' : σ} {is ie : ℤ} (h0 : 0 ≤ is) (h : Permuted obs s s' is ie)
    {Q : τ → Prop} {a b : ℤ} (ha : a ≤ is) (hb : ie ≤ b) (h0a : 0 ≤ a) (hQ : ∀ q, a ≤ q → q ≤ b → Q (obs s q)) :
    ∀ q, a ≤ q → q ≤ b → Q (obs s' q) := by
  obtain ⟨f, hf, ho⟩ := h
  intro q h1 h2
  rw [ho q (by omega)]
  by_cases hc : is ≤ q ∧ q ≤ ie
  · have := perm_stays hf hc; exact hQ _ (by omega) (by omega)
  · rw [hf q hc]; exact hQ _ h1 h2

theorem Permuted.outside {obs : σ → ℤ → τ} {s s' : σ} {is ie : ℤ} (h : Permuted obs s s' is ie) {q : ℤ} (h0 : 0 ≤ q)
    (hq : q < is ∨ ie < q) : obs s' q = obs s q := by
  obtain ⟨f, hf, ho⟩ := h
  rw [ho q h0, hf q (by omega)]

/-- what the quicksort needs of its key read and swap; `P` = "every array covers `[0,N)`" -/
structure Swappable [LinearOrder ρ] (rd : ℤ → σ → Option κ) (swap : ℤ → ℤ → σ → Option σ) (lt : κ → κ → Bool)
    (P : σ → Prop) (N : ℤ) (obs : σ → ℤ → τ) (kf : τ → κ) (rank : κ → ρ) : Prop where
  hrd : ∀ s i, P s → 0 ≤ i → i < N → rd i s = some (kf (obs s i))
  hsw : ∀ s x y, P s → 0 ≤ x → x < N → 0 ≤ y → y < N →
    Ok (swap x y s) fun s' => P s' ∧ ∀ k, 0 ≤ k → obs s' k = obs s (Equiv.swap x y k)
  hlt : ∀ a b, lt a b = decide (rank a < rank b)

variable [LinearOrder ρ] {rd : ℤ → σ → Option κ} {swap : ℤ → ℤ → σ → Option σ} {lt : κ → κ → Bool}
  {P : σ → Prop} {N : ℤ} {obs : σ → ℤ → τ} {kf : τ → κ} {rank : κ → ρ}

/-- the scan from the left stops at or before a key that is not smaller -/
theorem Swappable.scanUp (h : Swappable rd swap lt P N obs kf rank) {s : σ} (hP : P s) (v : κ) (i q : ℤ) (h0 : 0 ≤ i)
    (hiq : i ≤ q) (hqN : q < N) (hq : rank v ≤ rank (kf (obs s q))) :
    Ok (whileL (fun i => do let a ← rd i s; some (lt a v)) (fun i => some (i + 1)) i) fun i' =>
      i ≤ i' ∧ i' ≤ q ∧ rank v ≤ rank (kf (obs s i')) ∧ ∀ k, i ≤ k → k < i' → rank (kf (obs s k)) < rank v := by
  refine Ok_while (fun i' => i ≤ i' ∧ i' ≤ q ∧ ∀ k, i ≤ k → k < i' → rank (kf (obs s k)) < rank v) (fun i' => (q - i').toNat)
    ⟨le_rfl, hiq, fun k h1 h2 => by omega⟩ ?_
  rintro i' ⟨h1, h2, h3⟩
  rw [Ok_bind, h.hrd s i' hP (by omega) (by omega), Ok_some, Ok_some, h.hlt]
  by_cases hc : rank (kf (obs s i')) < rank v
  · have hne : i' ≠ q := by rintro rfl; exact absurd hc (not_lt.2 hq)
    simp only [hc, decide_true, if_true, Ok_some]
    refine ⟨⟨by omega, by omega, fun k k1 k2 => ?_⟩, by omega⟩
    by_cases hk : k = i'
    · rw [hk]; exact hc
    · exact h3 k k1 (by omega)
  · simp only [hc, decide_false, Bool.false_eq_true, if_false]
    exact ⟨h1, h2, not_lt.1 hc, h3⟩

/-- the scan from the right stops at or after a key that is not larger -/
theorem Swappable.scanDown (h : Swappable rd swap lt P N obs kf rank) {s : σ} (hP : P s) (v : κ) (j q : ℤ) (h0 : 0 ≤ q)
    (hjq : q ≤ j) (hjN : j < N) (hq : rank (kf (obs s q)) ≤ rank v) :
    Ok (whileL (fun j => do let a ← rd j s; some (lt v a)) (fun j => some (j - 1)) j) fun j' =>
      j' ≤ j ∧ q ≤ j' ∧ rank (kf (obs s j')) ≤ rank v ∧ ∀ k, j' < k → k ≤ j → rank v < rank (kf (obs s k)) := by
  refine Ok_while (fun j' => j' ≤ j ∧ q ≤ j' ∧ ∀ k, j' < k → k ≤ j → rank v < rank (kf (obs s k))) (fun j' => (j' - q).toNat)
    ⟨le_rfl, hjq, fun k h1 h2 => by omega⟩ ?_
  rintro j' ⟨h1, h2, h3⟩
  rw [Ok_bind, h.hrd s j' hP (by omega) (by omega), Ok_some, Ok_some, h.hlt]
  by_cases hc : rank v < rank (kf (obs s j'))
  · have hne : j' ≠ q := by rintro rfl; exact absurd hc (not_lt.2 hq)
    simp only [hc, decide_true, if_true, Ok_some]
    refine ⟨⟨by omega, by omega, fun k k1 k2 => ?_⟩, by omega⟩
    by_cases hk : k = j'
    · rw [hk]; exact hc
    · exact h3 k (by omega) k2
  · simp only [hc, decide_false, Bool.false_eq_true, if_false]
    exact ⟨h1, h2, not_lt.1 hc, h3⟩

theorem Swappable.part (h : Swappable rd swap lt P N obs kf rank) {s : σ} (hP : P s) {is ie : ℤ} (h0 : 0 ≤ is) (hlt : is < ie)
    (hN : ie < N) :
    Ok (qsortPart rd swap lt is ie s) fun st => P st.2.2 ∧ Permuted obs s st.2.2 is ie ∧
      is < st.1 ∧ st.1 ≤ ie + 1 ∧ is - 1 ≤ st.2.1 ∧ st.2.1 < ie ∧ st.2.1 < st.1 ∧
      ∃ v : ρ, (∀ q, is ≤ q → q < st.1 → rank (kf (obs st.2.2 q)) ≤ v) ∧
        ∀ q, st.2.1 < q → q ≤ ie → v ≤ rank (kf (obs st.2.2 q)) := by
  have hp : is ≤ (is + ie).tdiv 2 ∧ (is + ie).tdiv 2 ≤ ie := by
    rw [Int.tdiv_eq_ediv_of_nonneg (by omega)]; omega
  unfold qsortPart
  simp only
  rw [Ok_bind, h.hrd s _ hP (by omega) (by omega), Ok_some, Ok_bind]
  generalize hpp : (is + ie).tdiv 2 = p at hp
  generalize hv : kf (obs s p) = v
  refine (h.hsw s p ie hP (by omega) (by omega) (by omega) hN).mono ?_
  rintro s1 ⟨hP1, ho1⟩
  have hperm1 : Permuted obs s s1 is ie := Permuted.swap hp ⟨by omega, le_rfl⟩ ho1
  have hpiv : kf (obs s1 ie) = v := by rw [ho1 ie (by omega), Equiv.swap_apply_right, hv]
  refine Ok_while (fun st : ℤ × ℤ × σ => P st.2.2 ∧ Permuted obs s st.2.2 is ie ∧ is ≤ st.1 ∧ st.1 ≤ ie + 1 ∧ is - 1 ≤ st.2.1 ∧
      st.2.1 ≤ ie ∧ (∀ q, is ≤ q → q < st.1 → rank (kf (obs st.2.2 q)) ≤ rank v) ∧
      (∀ q, st.2.1 < q → q ≤ ie → rank v ≤ rank (kf (obs st.2.2 q))) ∧
      ((st.1 = is ∧ st.2.1 = ie ∧ kf (obs st.2.2 ie) = v) ∨
       (is < st.1 ∧ st.2.1 < ie ∧ (st.1 ≤ st.2.1 → (∃ q, st.1 ≤ q ∧ q ≤ ie ∧ rank v ≤ rank (kf (obs st.2.2 q))) ∧
          ∃ q, is ≤ q ∧ q ≤ st.2.1 ∧ rank (kf (obs st.2.2 q)) ≤ rank v))))
    (fun st => (st.2.1 - st.1 + 1).toNat)
    ⟨hP1, hperm1, le_rfl, by simp only; omega, by simp only; omega, le_rfl, fun q h1 h2 => by simp only at h2; omega,
      fun q h1 h2 => by simp only at h1; omega, Or.inl ⟨rfl, rfl, hpiv⟩⟩ ?_
  rintro ⟨i, j, s2⟩ ⟨hP2, hperm2, h1, h2, h3, h4, hlo, hhi, hor⟩
  simp only at hP2 hperm2 h1 h2 h3 h4 hlo hhi hor ⊢
  rw [Ok_some]
  by_cases hij : i ≤ j
  · simp only [hij, decide_true, if_true]
    have hex : (∃ q, i ≤ q ∧ q ≤ ie ∧ rank v ≤ rank (kf (obs s2 q))) ∧
        ∃ q, is ≤ q ∧ q ≤ j ∧ rank (kf (obs s2 q)) ≤ rank v := by
      rcases hor with ⟨_, e2, e3⟩ | ⟨_, _, hh⟩
      · exact ⟨⟨ie, by omega, le_rfl, by rw [e3]⟩, ie, by omega, by omega, by rw [e3]⟩
      · exact hh hij
    obtain ⟨⟨q, q1, q2, q3⟩, q', q1', q2', q3'⟩ := hex
    unfold qsortStep
    simp only
    rw [Ok_bind]
    refine (h.scanUp hP2 v i q (by omega) q1 (by omega) q3).mono ?_
    rintro i' ⟨i1, i2, i3, i4⟩
    rw [Ok_bind]
    refine (h.scanDown hP2 v j q' (by omega) q2' (by omega) q3').mono ?_
    rintro j' ⟨j1, j2, j3, j4⟩
    have hlo' : ∀ q, is ≤ q → q < i' → rank (kf (obs s2 q)) ≤ rank v := fun q a b => by
      by_cases hc : q < i
      · exact hlo q a hc
      · exact (i4 q (by omega) b).le
    have hhi' : ∀ q, j' < q → q ≤ ie → rank v ≤ rank (kf (obs s2 q)) := fun q a b => by
      by_cases hc : j < q
      · exact hhi q hc b
      · exact (j4 q a (by omega)).le
    by_cases hc : i' ≤ j'
    · rw [if_pos hc, Ok_bind]
      refine (h.hsw s2 i' j' hP2 (by omega) (by omega) (by omega) (by omega)).mono ?_
      rintro s3 ⟨hP3, ho3⟩
      rw [Ok_pure]
      have ei : obs s3 i' = obs s2 j' := by rw [ho3 _ (by omega), Equiv.swap_apply_left]
      have ej : obs s3 j' = obs s2 i' := by rw [ho3 _ (by omega), Equiv.swap_apply_right]
      have en : ∀ k, 0 ≤ k → k ≠ i' → k ≠ j' → obs s3 k = obs s2 k := fun k a b c => by
        rw [ho3 _ a, Equiv.swap_apply_of_ne_of_ne b c]
      refine ⟨⟨hP3, hperm2.trans h0 (Permuted.swap ⟨by omega, by omega⟩ ⟨by omega, by omega⟩ ho3), ?_, ?_, ?_, ?_, ?_, ?_,
        Or.inr ⟨?_, ?_, ?_⟩⟩, ?_⟩ <;> simp only
      · omega
      · omega
      · omega
      · omega
      · intro k a b
        by_cases hk : k = i'
        · rw [hk, ei]; exact j3
        · rw [en k (by omega) hk (by omega)]; exact hlo' k a (by omega)
      · intro k a b
        by_cases hk : k = j'
        · rw [hk, ej]; exact i3
        · rw [en k (by omega) (by omega) hk]; exact hhi' k (by omega) b
      · omega
      · omega
      · intro _
        exact ⟨⟨j', by omega, by omega, by rw [ej]; exact i3⟩, i', by omega, by omega, by rw [ei]; exact j3⟩
      · omega
    · rw [if_neg hc, Ok_pure]
      have hne : ¬ (i = is ∧ j = ie ∧ kf (obs s2 ie) = v) := by
        rintro ⟨_, e2, e3⟩
        have : j' = ie := by
          by_contra hj
          have := j4 ie (by omega) (by omega)
          rw [e3] at this
          exact lt_irrefl _ this
        omega
      refine ⟨⟨hP2, hperm2, ?_, ?_, ?_, ?_, hlo', hhi', Or.inr ⟨?_, ?_, ?_⟩⟩, ?_⟩ <;> simp only
      · omega
      · omega
      · omega
      · omega
      · rcases hor with hh | ⟨hh, _⟩
        · exact absurd hh hne
        · omega
      · rcases hor with hh | ⟨_, hh, _⟩
        · exact absurd hh hne
        · omega
      · intro hh; exact absurd hh hc
      · omega
  · simp only [hij, decide_false, Bool.false_eq_true, if_false]
    rcases hor with ⟨e1, e2, _⟩ | ⟨e1, e2, _⟩
    · omega
    · exact ⟨hP2, hperm2, e1, h2, h3, e2, by omega, rank v, hlo, hhi⟩

theorem Swappable.sorts (h : Swappable rd swap lt P N obs kf rank) :
    ∀ (m : ℕ) {s : σ} {is ie : ℤ}, (ie - is).toNat ≤ m → P s → 0 ≤ is → ie < N →
    Ok (qsort rd swap lt is ie s) fun s' => P s' ∧ Permuted obs s s' is ie ∧
      ∀ a b, is ≤ a → a ≤ b → b ≤ ie → rank (kf (obs s' a)) ≤ rank (kf (obs s' b)) := by
  intro m
  induction m with
  | zero =>
    intro s is ie hm hP h0 hN
    rw [qsort, if_pos (by omega), Ok_some]
    refine ⟨hP, Permuted.refl _ _ _ _, fun a b h1 h2 h3 => ?_⟩
    rw [show a = b by omega]
  | succ m ih =>
    intro s is ie hm hP h0 hN
    rw [qsort]
    by_cases hle : ie ≤ is
    · rw [if_pos hle, Ok_some]
      refine ⟨hP, Permuted.refl _ _ _ _, fun a b h1 h2 h3 => ?_⟩
      rw [show a = b by omega]
    · rw [if_neg hle, Ok_bind]
      refine (h.part hP h0 (by omega) hN).mono ?_
      rintro ⟨i, j, s1⟩ ⟨hP1, hp1, h1, h2, h3, h4, h5, v, hlo, hhi⟩
      simp only at hP1 hp1 h1 h2 h3 h4 h5 hlo hhi ⊢
      rw [Ok_bind]
      refine (ih (by omega) hP1 h0 (by omega)).mono ?_
      rintro s2 ⟨hP2, hp2, hs2⟩
      refine (ih (by omega) hP2 (by omega) hN).mono ?_
      rintro s3 ⟨hP3, hp3, hs3⟩
      have lo2 := hp2.forall (Q := fun t => rank (kf t) ≤ v) h0 (a := is) (b := i - 1) le_rfl (by omega) h0
        (fun q a b => hlo q a (by omega))
      have hi3 : ∀ q, j < q → q ≤ ie → v ≤ rank (kf (obs s3 q)) := by
        have := hp3.forall (Q := fun t => v ≤ rank (kf t)) (by omega) (a := j + 1) (b := ie) (by omega) le_rfl (by omega)
          (fun q a b => by rw [hp2.outside (by omega) (by omega)]; exact hhi q (by omega) b)
        exact fun q a b => this q (by omega) b
      have lo3 : ∀ q, is ≤ q → q < i → rank (kf (obs s3 q)) ≤ v := fun q a b => by
        rw [hp3.outside (by omega) (by omega)]; exact lo2 q a (by omega)
      refine ⟨hP3, (hp1.trans h0 (hp2.mono le_rfl (by omega))).trans h0 (hp3.mono (by omega) le_rfl), fun a b a1 a2 a3 => ?_⟩
      by_cases ha : i ≤ a
      · exact hs3 a b ha a2 a3
      · by_cases hb : b ≤ j
        · rw [hp3.outside (by omega) (by omega), hp3.outside (by omega) (by omega)]
          exact hs2 a b a1 a2 hb
        · exact (lo3 a a1 (by omega)).trans (hi3 b (by omega) a3)

/-! ### permutations of natural positions -/

theorem natPerm {f : Equiv.Perm ℤ} {is ie : ℤ} (h0 : 0 ≤ is) (hf : ∀ k, ¬ (is ≤ k ∧ k ≤ ie) → f k = k) :
    ∃ g : Equiv.Perm ℕ, (∀ k : ℕ, ¬ (is ≤ k ∧ (k : ℤ) ≤ ie) → g k = k) ∧ ∀ k : ℕ, ((g k : ℕ) : ℤ) = f k := by
  have hnn : ∀ k : ℤ, 0 ≤ k → 0 ≤ f k := fun k hk => by
    by_cases hc : is ≤ k ∧ k ≤ ie
    · have := perm_stays hf hc; omega
    · rw [hf k hc]; exact hk
  have hf' : ∀ k, ¬ (is ≤ k ∧ k ≤ ie) → f.symm k = k := fun k hk => by
    rw [Equiv.symm_apply_eq, hf k hk]
  have hnn' : ∀ k : ℤ, 0 ≤ k → 0 ≤ f.symm k := fun k hk => by
    by_cases hc : is ≤ k ∧ k ≤ ie
    · have := perm_stays hf' hc; omega
    · rw [hf' k hc]; exact hk
  refine ⟨⟨fun k => (f k).toNat, fun k => (f.symm k).toNat, fun k => ?_, fun k => ?_⟩, fun k hk => ?_, fun k => ?_⟩
  · simp only
    rw [Int.toNat_of_nonneg (hnn _ (by omega)), Equiv.symm_apply_apply]; rfl
  · simp only
    rw [Int.toNat_of_nonneg (hnn' _ (by omega)), Equiv.apply_symm_apply]; rfl
  · show (f k).toNat = k
    rw [hf k hk]; rfl
  · show (((f k).toNat : ℕ) : ℤ) = f k
    rw [Int.toNat_of_nonneg (hnn _ (by omega))]

/-- result of a sort in terms of natural positions -/
theorem Swappable.sortsNat (h : Swappable rd swap lt P N obs kf rank) {s : σ} {is ie : ℤ} (hP : P s) (h0 : 0 ≤ is)
    (hN : ie < N) :
    Ok (qsort rd swap lt is ie s) fun s' => P s' ∧ ∃ g : Equiv.Perm ℕ, (∀ k : ℕ, ¬ (is ≤ k ∧ (k : ℤ) ≤ ie) → g k = k) ∧
      (∀ k : ℕ, obs s' k = obs s (g k)) ∧
      ∀ a b : ℕ, is ≤ a → a ≤ b → (b : ℤ) ≤ ie → rank (kf (obs s' a)) ≤ rank (kf (obs s' b)) := by
  refine (h.sorts _ le_rfl hP h0 hN).mono ?_
  rintro s' ⟨hP', ⟨f, hf, ho⟩, hs⟩
  obtain ⟨g, hg, hfg⟩ := natPerm h0 hf
  exact ⟨hP', g, hg, fun k => by rw [ho k (by omega), hfg], fun a b h1 h2 h3 => hs a b h1 (by omega) h3⟩

/-! ### the swaps -/

theorem swapA_spec {α : Type} (a : Arr α) {x y : ℤ} (hx : 0 ≤ x) (hx' : x < a.size) (hy : 0 ≤ y) (hy' : y < a.size) :
    Ok (swapA a x y) fun a' => a'.size = a.size ∧ ∀ k : ℤ, 0 ≤ k → a'.get k.toNat = a.get (Equiv.swap x y k).toNat := by
  unfold swapA
  simp only [Ok_bind, Ok_rdI, Ok_wrI]
  refine ⟨hx, by omega, hy, by omega, hx, by omega, hy, by simp; omega, rfl, fun k hk => ?_⟩
  simp only [Arr.set_get, Equiv.swap_apply_def]
  by_cases h1 : k = x
  · by_cases h2 : k = y
    · subst h1; subst h2; simp
    · have : k.toNat ≠ y.toNat := by omega
      rw [if_neg this, if_pos (by omega), if_pos h1]
  · by_cases h2 : k = y
    · rw [if_pos (by omega), if_neg h1, if_pos h2]
    · rw [if_neg (by omega), if_neg (by omega), if_neg h1, if_neg h2]

theorem memcpyA_spec {α : Type} (d : Arr α) (q : ℤ) (s : Arr α) (p : ℤ) (bs : ℕ) (hq : 0 ≤ q) (hq' : q + bs ≤ d.size)
    (hp : 0 ≤ p) (hp' : p + bs ≤ s.size) :
    Ok (memcpyA d q s p bs) fun d' => d'.size = d.size ∧
      ∀ k : ℕ, d'.get k = if q ≤ k ∧ (k : ℤ) < q + bs then s.get (p + (k - q)).toNat else d.get k := by
  unfold memcpyA
  refine Ok_loop_le (fun t d' => d'.size = d.size ∧
      ∀ k : ℕ, d'.get k = if q ≤ k ∧ (k : ℤ) < q + t then s.get (p + (k - q)).toNat else d.get k) (Nat.zero_le _)
    ⟨rfl, fun k => by rw [if_neg (by omega)]⟩ ?_ (fun _ h => h)
  rintro t d' _ ht ⟨hs, hg⟩
  simp only [Ok_bind, Ok_rdI, Ok_wrI]
  refine ⟨by omega, by omega, by omega, by omega, hs, fun k => ?_⟩
  simp only [Arr.set_get]
  by_cases hk : k = (q + t).toNat
  · rw [if_pos hk, if_pos (by omega)]; congr 2; omega
  · rw [if_neg hk, hg k]
    by_cases hc : q ≤ k ∧ (k : ℤ) < q + t
    · rw [if_pos hc, if_pos (by omega)]
    · rw [if_neg hc, if_neg (by omega)]

theorem mul_block {bs : ℕ} {x y : ℤ} (h : x < y) : (bs : ℤ) * x + bs ≤ bs * y := by
  have h1 : (bs : ℤ) * (x + 1) ≤ bs * y := Int.mul_le_mul_of_nonneg_left (by omega) (by omega)
  rw [Int.mul_add, Int.mul_one] at h1
  exact h1

theorem swapBlk_spec {α : Type} {bs : ℕ} (hbs : bs ≤ 9) (buf : ℕ → α) (d : Arr α) {N x y : ℤ} (hN : bs * N ≤ d.size)
    (hx : 0 ≤ x) (hx' : x < N) (hy : 0 ≤ y) (hy' : y < N) :
    Ok (swapBlk bs buf d x y) fun d' => d'.size = d.size ∧
      ∀ k : ℤ, 0 ≤ k → ∀ t : ℕ, t < bs → d'.get (bs * k + t).toNat = d.get (bs * Equiv.swap x y k + t).toNat := by
  have x0 : 0 ≤ (bs : ℤ) * x := Int.mul_nonneg (by omega) hx
  have y0 : 0 ≤ (bs : ℤ) * y := Int.mul_nonneg (by omega) hy
  have x1 := mul_block (bs := bs) hx'
  have y1 := mul_block (bs := bs) hy'
  unfold swapBlk
  rw [Ok_bind]
  refine (memcpyA_spec _ _ _ _ _ le_rfl (by simp; omega) x0 (by omega)).mono ?_
  rintro s1 ⟨h1, g1⟩
  rw [Ok_bind]
  refine (memcpyA_spec _ _ _ _ _ x0 (by omega) y0 (by omega)).mono ?_
  rintro d1 ⟨h2, g2⟩
  refine (memcpyA_spec _ _ _ _ _ y0 (by omega) le_rfl (by rw [h1]; simp; omega)).mono ?_
  rintro d2 ⟨h3, g3⟩
  refine ⟨by omega, fun k hk t ht => ?_⟩
  have k0 : 0 ≤ (bs : ℤ) * k := Int.mul_nonneg (by omega) hk
  have apart : ∀ {u w : ℤ}, u ≠ w → (bs : ℤ) * u + bs ≤ bs * w ∨ (bs : ℤ) * w + bs ≤ bs * u := fun h => by
    rcases Int.lt_or_gt_of_ne h with h | h
    · exact Or.inl (mul_block h)
    · exact Or.inr (mul_block h)
  rw [g3, Equiv.swap_apply_def]
  by_cases hky : k = y
  · subst hky
    rw [if_pos (by omega), g1, if_pos (by omega)]
    by_cases hkx : k = x
    · subst hkx; rw [if_pos rfl]; congr 1; omega
    · rw [if_neg hkx, if_pos rfl]; congr 1; omega
  · have := apart hky
    rw [if_neg (by omega), g2]
    by_cases hkx : k = x
    · subst hkx; rw [if_pos rfl, if_pos (by omega)]; congr 1; omega
    · have := apart hkx
      rw [if_neg hkx, if_neg hky, if_neg (by omega)]

end Lis
