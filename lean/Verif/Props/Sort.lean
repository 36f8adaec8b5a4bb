import Verif.Lemmas.Sort
import Verif.Lemmas.SortJad

/-!
# C15, C16: the sorts of src/system/lis_sort.c

`SortedBy g is ie a a'`-style statements are spelled out in each theorem: there is one permutation `g` of
the positions that moves nothing outside `[is,ie]`, every array is permuted by it, and the keys are in
order.  `Ok` includes termination and no access outside the arrays.
-/

namespace Lis
variable {κ α β γ : Type}

/-- what every sort of this file promises: the positions of `[is,ie]` were permuted by `g`, nothing else -/
def PermutesRange (is ie : ℤ) (g : Equiv.Perm ℕ) : Prop := ∀ k : ℕ, ¬ (is ≤ k ∧ (k : ℤ) ≤ ie) → g k = k

/-- array `a'` is array `a` rearranged by `g` -/
def Arr.RearrangedBy (g : Equiv.Perm ℕ) (a a' : Arr α) : Prop := a'.size = a.size ∧ ∀ k, a'.get k = a.get (g k)

theorem lisSortI_swappable [LinearOrder κ] (n : ℕ) :
    Swappable (fun k s => s.rdI k) (fun x y s => swapA s x y) (fun a b => decide (a < b)) (fun s : Arr κ => s.size = n) n
      (fun s k => s.get k.toNat) id (id : κ → κ) where
  hrd := fun s i h h0 hN => by
    unfold Arr.rdI Arr.rd; rw [if_pos h0, if_pos (by omega)]; rfl
  hsw := fun s x y h h1 h2 h3 h4 => (swapA_spec s h1 (by omega) h3 (by omega)).mono fun s' hs => ⟨by omega, hs.2⟩
  hlt := fun a b => rfl

/-- **C15 (`lis_sort_i`).** -/
theorem lisSortI_spec [LinearOrder κ] (is ie : ℤ) (i1 : Arr κ) (h0 : 0 ≤ is) (h1 : ie < i1.size) :
    Ok (lisSortI is ie i1) fun s => ∃ g : Equiv.Perm ℕ, PermutesRange is ie g ∧ i1.RearrangedBy g s ∧
      ∀ a b : ℕ, is ≤ a → a ≤ b → (b : ℤ) ≤ ie → s.get a ≤ s.get b := by
  refine ((lisSortI_swappable (κ := κ) i1.size).sortsNat rfl h0 h1).mono ?_
  rintro s ⟨hs, g, hg, ho, hsort⟩
  exact ⟨g, hg, ⟨hs, ho⟩, hsort⟩

theorem swap2_ok {n m : ℕ} {s : Arr α × Arr β} (h : s.1.size = n ∧ s.2.size = m) {N : ℤ} (hn : N ≤ n) (hm : N ≤ m) {x y : ℤ}
    (h1 : 0 ≤ x) (h2 : x < N) (h3 : 0 ≤ y) (h4 : y < N) :
    Ok (do let a ← swapA s.1 x y
           let b ← swapA s.2 x y
           pure (a, b) : Option (Arr α × Arr β)) fun s' => (s'.1.size = n ∧ s'.2.size = m) ∧
      ∀ k : ℤ, 0 ≤ k → ((s'.1.get k.toNat, s'.2.get k.toNat) : α × β) =
        (s.1.get (Equiv.swap x y k).toNat, s.2.get (Equiv.swap x y k).toNat) := by
  rw [Ok_bind]
  refine (swapA_spec s.1 h1 (by omega) h3 (by omega)).mono ?_
  rintro a ⟨ha, ga⟩
  rw [Ok_bind]
  refine (swapA_spec s.2 h1 (by omega) h3 (by omega)).mono ?_
  rintro b ⟨hb, gb⟩
  rw [Ok_pure]
  exact ⟨⟨by simp only; omega, by simp only; omega⟩, fun k hk => by rw [ga k hk, gb k hk]⟩

/-- **C15 (`lis_sort_id`, `lis_sort_ii`).** -/
theorem lisSortId_spec [LinearOrder κ] (is ie : ℤ) (s : Arr κ × Arr α) (h0 : 0 ≤ is) (h1 : ie < s.1.size) (h2 : ie < s.2.size) :
    Ok (lisSortId is ie s) fun s' => ∃ g : Equiv.Perm ℕ, PermutesRange is ie g ∧ s.1.RearrangedBy g s'.1 ∧
      s.2.RearrangedBy g s'.2 ∧ ∀ a b : ℕ, is ≤ a → a ≤ b → (b : ℤ) ≤ ie → s'.1.get a ≤ s'.1.get b := by
  have hsw : Swappable (fun k (s : Arr κ × Arr α) => s.1.rdI k)
      (fun x y s => do
        let a ← swapA s.1 x y
        let b ← swapA s.2 x y
        pure (a, b)) (fun a b => decide (a < b)) (fun t => t.1.size = s.1.size ∧ t.2.size = s.2.size)
      (min s.1.size s.2.size : ℤ) (fun s k => (s.1.get k.toNat, s.2.get k.toNat)) Prod.fst (id : κ → κ) :=
    { hrd := fun t i h h0 hN => by unfold Arr.rdI Arr.rd; rw [if_pos h0, if_pos (by omega)]
      hsw := fun t x y h h1 h2 h3 h4 => swap2_ok h (min_le_left _ _) (min_le_right _ _) h1 h2 h3 h4
      hlt := fun a b => rfl }
  refine (hsw.sortsNat ⟨rfl, rfl⟩ h0 (lt_min h1 h2)).mono ?_
  rintro s' ⟨hs, g, hg, ho, hsort⟩
  exact ⟨g, hg, ⟨hs.1, fun k => congrArg Prod.fst (ho k)⟩, ⟨hs.2, fun k => congrArg Prod.snd (ho k)⟩, hsort⟩

theorem lisSortIi_spec [LinearOrder κ] (is ie : ℤ) (s : Arr κ × Arr α) (h0 : 0 ≤ is) (h1 : ie < s.1.size) (h2 : ie < s.2.size) :
    Ok (lisSortIi is ie s) fun s' => ∃ g : Equiv.Perm ℕ, PermutesRange is ie g ∧ s.1.RearrangedBy g s'.1 ∧
      s.2.RearrangedBy g s'.2 ∧ ∀ a b : ℕ, is ≤ a → a ≤ b → (b : ℤ) ≤ ie → s'.1.get a ≤ s'.1.get b :=
  lisSortId_spec is ie s h0 h1 h2

/-- **C15 (`lis_sortr_ii`).** Descending. -/
theorem lisSortrIi_spec [LinearOrder κ] (is ie : ℤ) (s : Arr κ × Arr α) (h0 : 0 ≤ is) (h1 : ie < s.1.size) (h2 : ie < s.2.size) :
    Ok (lisSortrIi is ie s) fun s' => ∃ g : Equiv.Perm ℕ, PermutesRange is ie g ∧ s.1.RearrangedBy g s'.1 ∧
      s.2.RearrangedBy g s'.2 ∧ ∀ a b : ℕ, is ≤ a → a ≤ b → (b : ℤ) ≤ ie → s'.1.get b ≤ s'.1.get a := by
  have hsw : Swappable (fun k (s : Arr κ × Arr α) => s.1.rdI k)
      (fun x y s => do
        let a ← swapA s.1 x y
        let b ← swapA s.2 x y
        pure (a, b)) (fun a b => decide (b < a)) (fun t => t.1.size = s.1.size ∧ t.2.size = s.2.size)
      (min s.1.size s.2.size : ℤ) (fun s k => (s.1.get k.toNat, s.2.get k.toNat)) Prod.fst (OrderDual.toDual : κ → κᵒᵈ) :=
    { hrd := fun t i h h0 hN => by unfold Arr.rdI Arr.rd; rw [if_pos h0, if_pos (by omega)]
      hsw := fun t x y h h1 h2 h3 h4 => swap2_ok h (min_le_left _ _) (min_le_right _ _) h1 h2 h3 h4
      hlt := fun a b => rfl }
  refine (hsw.sortsNat ⟨rfl, rfl⟩ h0 (lt_min h1 h2)).mono ?_
  rintro s' ⟨hs, g, hg, ho, hsort⟩
  exact ⟨g, hg, ⟨hs.1, fun k => congrArg Prod.fst (ho k)⟩, ⟨hs.2, fun k => congrArg Prod.snd (ho k)⟩, hsort⟩

/-- **C15 (`lis_sort_iid`).** -/
theorem lisSortIid_spec [LinearOrder κ] (is ie : ℤ) (s : Arr κ × Arr α × Arr β) (h0 : 0 ≤ is) (h1 : ie < s.1.size)
    (h2 : ie < s.2.1.size) (h3 : ie < s.2.2.size) :
    Ok (lisSortIid is ie s) fun s' => ∃ g : Equiv.Perm ℕ, PermutesRange is ie g ∧ s.1.RearrangedBy g s'.1 ∧
      s.2.1.RearrangedBy g s'.2.1 ∧ s.2.2.RearrangedBy g s'.2.2 ∧
      ∀ a b : ℕ, is ≤ a → a ≤ b → (b : ℤ) ≤ ie → s'.1.get a ≤ s'.1.get b := by
  have hsw : Swappable (fun k (s : Arr κ × Arr α × Arr β) => s.1.rdI k)
      (fun x y s => do
        let a ← swapA s.1 x y
        let b ← swapA s.2.1 x y
        let c ← swapA s.2.2 x y
        pure (a, b, c)) (fun a b => decide (a < b))
      (fun t => t.1.size = s.1.size ∧ t.2.1.size = s.2.1.size ∧ t.2.2.size = s.2.2.size)
      (min s.1.size (min s.2.1.size s.2.2.size) : ℤ) (fun s k => (s.1.get k.toNat, s.2.1.get k.toNat, s.2.2.get k.toNat))
      Prod.fst (id : κ → κ) :=
    { hrd := fun t i h h0 hN => by unfold Arr.rdI Arr.rd; rw [if_pos h0, if_pos (by omega)]
      hsw := fun t x y h h1 h2 h3 h4 => by
        rw [Ok_bind]
        refine (swapA_spec t.1 h1 (by omega) h3 (by omega)).mono ?_
        rintro a ⟨ha, ga⟩
        rw [Ok_bind]
        refine (swapA_spec t.2.1 h1 (by omega) h3 (by omega)).mono ?_
        rintro b ⟨hb, gb⟩
        rw [Ok_bind]
        refine (swapA_spec t.2.2 h1 (by omega) h3 (by omega)).mono ?_
        rintro c ⟨hc, gc⟩
        rw [Ok_pure]
        exact ⟨⟨by simp only; omega, by simp only; omega, by simp only; omega⟩,
          fun k hk => by simp only; rw [ga k hk, gb k hk, gc k hk]⟩
      hlt := fun a b => rfl }
  refine (hsw.sortsNat ⟨rfl, rfl, rfl⟩ h0 (lt_min h1 (lt_min h2 h3))).mono ?_
  rintro s' ⟨hs, g, hg, ho, hsort⟩
  exact ⟨g, hg, ⟨hs.1, fun k => congrArg Prod.fst (ho k)⟩, ⟨hs.2.1, fun k => congrArg (fun t => t.2.1) (ho k)⟩,
    ⟨hs.2.2, fun k => congrArg (fun t => t.2.2) (ho k)⟩, hsort⟩

/-- **C15 (`lis_sort_iiid`).** -/
theorem lisSortIiid_spec [LinearOrder κ] (is ie : ℤ) (s : Arr κ × Arr α × Arr β × Arr γ) (h0 : 0 ≤ is) (h1 : ie < s.1.size)
    (h2 : ie < s.2.1.size) (h3 : ie < s.2.2.1.size) (h4 : ie < s.2.2.2.size) :
    Ok (lisSortIiid is ie s) fun s' => ∃ g : Equiv.Perm ℕ, PermutesRange is ie g ∧ s.1.RearrangedBy g s'.1 ∧
      s.2.1.RearrangedBy g s'.2.1 ∧ s.2.2.1.RearrangedBy g s'.2.2.1 ∧ s.2.2.2.RearrangedBy g s'.2.2.2 ∧
      ∀ a b : ℕ, is ≤ a → a ≤ b → (b : ℤ) ≤ ie → s'.1.get a ≤ s'.1.get b := by
  have hsw : Swappable (fun k (s : Arr κ × Arr α × Arr β × Arr γ) => s.1.rdI k)
      (fun x y s => do
        let a ← swapA s.1 x y
        let b ← swapA s.2.1 x y
        let c ← swapA s.2.2.1 x y
        let d ← swapA s.2.2.2 x y
        pure (a, b, c, d)) (fun a b => decide (a < b))
      (fun t => t.1.size = s.1.size ∧ t.2.1.size = s.2.1.size ∧ t.2.2.1.size = s.2.2.1.size ∧ t.2.2.2.size = s.2.2.2.size)
      (min (min s.1.size s.2.1.size) (min s.2.2.1.size s.2.2.2.size) : ℤ)
      (fun s k => (s.1.get k.toNat, s.2.1.get k.toNat, s.2.2.1.get k.toNat, s.2.2.2.get k.toNat))
      Prod.fst (id : κ → κ) :=
    { hrd := fun t i h h0 hN => by unfold Arr.rdI Arr.rd; rw [if_pos h0, if_pos (by omega)]
      hsw := fun t x y h h1 h2 h3 h4 => by
        rw [Ok_bind]
        refine (swapA_spec t.1 h1 (by omega) h3 (by omega)).mono ?_
        rintro a ⟨ha, ga⟩
        rw [Ok_bind]
        refine (swapA_spec t.2.1 h1 (by omega) h3 (by omega)).mono ?_
        rintro b ⟨hb, gb⟩
        rw [Ok_bind]
        refine (swapA_spec t.2.2.1 h1 (by omega) h3 (by omega)).mono ?_
        rintro c ⟨hc, gc⟩
        rw [Ok_bind]
        refine (swapA_spec t.2.2.2 h1 (by omega) h3 (by omega)).mono ?_
        rintro d ⟨hd, gd⟩
        rw [Ok_pure]
        exact ⟨⟨by simp only; omega, by simp only; omega, by simp only; omega, by simp only; omega⟩,
          fun k hk => by simp only; rw [ga k hk, gb k hk, gc k hk, gd k hk]⟩
      hlt := fun a b => rfl }
  refine (hsw.sortsNat ⟨rfl, rfl, rfl, rfl⟩ h0 (lt_min (lt_min h1 h2) (lt_min h3 h4))).mono ?_
  rintro s' ⟨hs, g, hg, ho, hsort⟩
  exact ⟨g, hg, ⟨hs.1, fun k => congrArg Prod.fst (ho k)⟩, ⟨hs.2.1, fun k => congrArg (fun t => t.2.1) (ho k)⟩,
    ⟨hs.2.2.1, fun k => congrArg (fun t => t.2.2.1) (ho k)⟩, ⟨hs.2.2.2, fun k => congrArg (fun t => t.2.2.2) (ho k)⟩, hsort⟩

/-- **C15 (`lis_sort_d`)**: scalars ordered by their real part; keys must be comparable (no NaN). -/
theorem lisSortD_spec [LinearOrder κ] (re : α → κ) (is ie : ℤ) (d1 : Arr α) (h0 : 0 ≤ is) (h1 : ie < d1.size) :
    Ok (lisSortD re is ie d1) fun s => ∃ g : Equiv.Perm ℕ, PermutesRange is ie g ∧ d1.RearrangedBy g s ∧
      ∀ a b : ℕ, is ≤ a → a ≤ b → (b : ℤ) ≤ ie → re (s.get a) ≤ re (s.get b) := by
  have hsw : Swappable (fun k s => s.rdI k) (fun x y s => swapA s x y) (fun a b => decide (re a < re b))
      (fun s : Arr α => s.size = d1.size) d1.size (fun s k => s.get k.toNat) id re :=
    { hrd := fun s i h h0 hN => by
        unfold Arr.rdI Arr.rd; rw [if_pos h0, if_pos (by omega)]; rfl
      hsw := fun s x y h h1 h2 h3 h4 => (swapA_spec s h1 (by omega) h3 (by omega)).mono fun s' hs => ⟨by omega, hs.2⟩
      hlt := fun a b => rfl }
  refine (hsw.sortsNat rfl h0 h1).mono ?_
  rintro s ⟨hs, g, hg, ho, hsort⟩
  exact ⟨g, hg, ⟨hs, ho⟩, hsort⟩

/-- **C15 (`lis_sort_di`, `lis_sort_dd`).** -/
theorem lisSortDi_spec [LinearOrder κ] (re : α → κ) (is ie : ℤ) (s : Arr α × Arr β) (h0 : 0 ≤ is) (h1 : ie < s.1.size)
    (h2 : ie < s.2.size) :
    Ok (lisSortDi re is ie s) fun s' => ∃ g : Equiv.Perm ℕ, PermutesRange is ie g ∧ s.1.RearrangedBy g s'.1 ∧
      s.2.RearrangedBy g s'.2 ∧ ∀ a b : ℕ, is ≤ a → a ≤ b → (b : ℤ) ≤ ie → re (s'.1.get a) ≤ re (s'.1.get b) := by
  have hsw : Swappable (fun k (s : Arr α × Arr β) => s.1.rdI k)
      (fun x y s => do
        let b ← swapA s.2 x y
        let a ← swapA s.1 x y
        pure (a, b)) (fun a b => decide (re a < re b)) (fun t => t.1.size = s.1.size ∧ t.2.size = s.2.size)
      (min s.1.size s.2.size : ℤ) (fun s k => (s.1.get k.toNat, s.2.get k.toNat)) Prod.fst re :=
    { hrd := fun t i h h0 hN => by unfold Arr.rdI Arr.rd; rw [if_pos h0, if_pos (by omega)]
      hsw := fun t x y h h1 h2 h3 h4 => by
        rw [Ok_bind]
        refine (swapA_spec t.2 h1 (by omega) h3 (by omega)).mono ?_
        rintro a ⟨ha, ga⟩
        rw [Ok_bind]
        refine (swapA_spec t.1 h1 (by omega) h3 (by omega)).mono ?_
        rintro b ⟨hb, gb⟩
        rw [Ok_pure]
        exact ⟨⟨by simp only; omega, by simp only; omega⟩, fun k hk => by simp only; rw [ga k hk, gb k hk]⟩
      hlt := fun a b => rfl }
  refine (hsw.sortsNat ⟨rfl, rfl⟩ h0 (lt_min h1 h2)).mono ?_
  rintro s' ⟨hs, g, hg, ho, hsort⟩
  exact ⟨g, hg, ⟨hs.1, fun k => congrArg Prod.fst (ho k)⟩, ⟨hs.2, fun k => congrArg Prod.snd (ho k)⟩, hsort⟩

/-- **C15 (`lis_sort_id_block`).** Blocks of `bs ≤ 9` scalars move with their keys. -/
theorem lisSortIdBlock_spec [LinearOrder κ] (bs : ℕ) (hbs : bs ≤ 9) (buf : ℕ → α) (is ie : ℤ) (s : Arr κ × Arr α)
    (h0 : 0 ≤ is) (h1 : ie < s.1.size) (h2 : bs * s.1.size ≤ s.2.size) :
    Ok (lisSortIdBlock bs buf is ie s) fun s' => ∃ g : Equiv.Perm ℕ, PermutesRange is ie g ∧ s.1.RearrangedBy g s'.1 ∧
      s'.2.size = s.2.size ∧ (∀ k t, t < bs → s'.2.get (bs * k + t) = s.2.get (bs * g k + t)) ∧
      ∀ a b : ℕ, is ≤ a → a ≤ b → (b : ℤ) ≤ ie → s'.1.get a ≤ s'.1.get b := by
  have hsw : Swappable (fun k (s : Arr κ × Arr α) => s.1.rdI k)
      (fun x y s => do
        let a ← swapA s.1 x y
        let b ← swapBlk bs buf s.2 x y
        pure (a, b)) (fun a b => decide (a < b)) (fun t => t.1.size = s.1.size ∧ t.2.size = s.2.size)
      s.1.size (fun s k => (s.1.get k.toNat, fun t : Fin bs => s.2.get (bs * k + (t : ℕ)).toNat)) Prod.fst (id : κ → κ) :=
    { hrd := fun t i h h0 hN => by unfold Arr.rdI Arr.rd; rw [if_pos h0, if_pos (by omega)]
      hsw := fun t x y h h1 h2' h3 h4 => by
        rw [Ok_bind]
        refine (swapA_spec t.1 h1 (by omega) h3 (by omega)).mono ?_
        rintro a ⟨ha, ga⟩
        rw [Ok_bind]
        refine (swapBlk_spec hbs buf t.2 (N := s.1.size) (by rw [h.2]; exact_mod_cast h2) h1 h2' h3 h4).mono ?_
        rintro b ⟨hb, gb⟩
        rw [Ok_pure]
        refine ⟨⟨by simp only; omega, by simp only; omega⟩, fun k hk => ?_⟩
        simp only
        rw [ga k hk]
        congr 1
        funext q
        exact gb k hk q q.2
      hlt := fun a b => rfl }
  refine (hsw.sortsNat ⟨rfl, rfl⟩ h0 h1).mono ?_
  rintro s' ⟨hs, g, hg, ho, hsort⟩
  refine ⟨g, hg, ⟨hs.1, fun k => congrArg Prod.fst (ho k)⟩, hs.2, fun k t ht => ?_, hsort⟩
  have := congrFun (congrArg Prod.snd (ho k)) ⟨t, ht⟩
  simp only at this
  have e : ∀ x : ℕ, ((bs : ℤ) * (x : ℤ) + (t : ℤ)).toNat = bs * x + t := fun x => by
    rw [show ((bs : ℤ) * (x : ℤ) + (t : ℤ)) = ((bs * x + t : ℕ) : ℤ) by push_cast; rfl, Int.toNat_natCast]
  rwa [e, e] at this

/-- **C15, negative.** With blocks of more than 9 scalars the local buffer of `lis_sort_id_block` overflows
as soon as there are two elements to sort. -/
theorem lisSortIdBlock_overflow [LinearOrder κ] (bs : ℕ) (hbs : 9 < bs) (buf : ℕ → α) (is ie : ℤ) (s : Arr κ × Arr α)
    (h : is < ie) : lisSortIdBlock bs buf is ie s = none := by
  have hm : ∀ (d : Arr α) (p : ℤ), memcpyA (Arr.malloc 9 buf) 0 d p bs = none := by
    intro d p
    unfold memcpyA
    have key : ∀ m, loop 0 (9 + 1 + m) (Arr.malloc 9 buf) (fun t (b : Arr α) => do
        let v ← d.rdI (p + t)
        b.wrI (0 + t) v) = none := by
      intro m
      have hsz : ∀ k i (b : Arr α), b.size = 9 → i ≤ 9 → 9 < i + k →
          iter (fun t (b : Arr α) => do
            let v ← d.rdI (p + t)
            b.wrI (0 + t) v) k i b = none := by
        intro k
        induction k with
        | zero => intro i b _ _ _; omega
        | succ k ih =>
          intro i b hb hi hk
          simp only [iter]
          cases hr : d.rdI (p + (i : ℤ)) with
          | none => rfl
          | some v =>
            simp only [Option.bind_eq_bind, Option.bind_some]
            by_cases hi9 : i = 9
            · subst hi9
              have : b.wrI (0 + ((9 : ℕ) : ℤ)) v = none := by unfold Arr.wrI Arr.wr; simp [hb]
              rw [this]; rfl
            · have : b.wrI (0 + (i : ℤ)) v = some (b.set i v) := by
                unfold Arr.wrI Arr.wr; rw [if_pos (by omega), if_pos (by omega)]; simp
              rw [this]
              exact ih (i + 1) _ hb (by omega) (by omega)
      exact hsz _ _ _ rfl (by omega) (by omega)
    have := key (bs - 10)
    rwa [show 9 + 1 + (bs - 10) = bs by omega] at this
  unfold lisSortIdBlock
  rw [qsort, if_neg (by omega)]
  unfold qsortPart
  simp only [Option.bind_eq_bind]
  cases s.1.rdI ((is + ie).tdiv 2) with
  | none => rfl
  | some v =>
    simp only [Option.bind_some]
    cases swapA s.1 ((is + ie).tdiv 2) ie with
    | none => rfl
    | some a =>
      have : swapBlk bs buf s.2 ((is + ie).tdiv 2) ie = none := by unfold swapBlk; rw [hm]; rfl
      rw [this]; rfl

/-- **C16 (`lis_sort_jad`).** Rows `[is,ie)` with lengths at most `maxnzr`: afterwards `i2` lists the rows
by decreasing length, equal lengths in increasing order (so each row exactly once), and `i1` holds the
lengths in that order; nothing outside the range changes. -/
theorem lisSortJad_spec (junk : ℕ → ℕ → ℕ) (is ie maxnzr : ℕ) (i1 i2 : Arr ℕ) (hle : is ≤ ie) (h1 : ie ≤ i1.size)
    (h2 : ie ≤ i2.size) (hm : ∀ i, is ≤ i → i < ie → i1.get i ≤ maxnzr) :
    Ok (lisSortJad junk is ie maxnzr i1 i2) fun r =>
      r.1.size = i1.size ∧ r.2.size = i2.size ∧
      (∀ k, is ≤ k → k < ie → is ≤ r.2.get k ∧ r.2.get k < ie ∧ r.1.get k = i1.get (r.2.get k)) ∧
      (∀ i, is ≤ i → i < ie → ∃ k, is ≤ k ∧ k < ie ∧ r.2.get k = i) ∧
      (∀ a b, is ≤ a → a < b → b < ie → r.1.get b < r.1.get a ∨ (r.1.get b = r.1.get a ∧ r.2.get a < r.2.get b)) ∧
      ∀ k, ¬ (is ≤ k ∧ k < ie) → r.1.get k = i1.get k ∧ r.2.get k = i2.get k := by
  refine (lisSortJad_spec' junk is ie maxnzr i1 i2 hle h1 h2 hm).mono ?_
  rintro ⟨x, y⟩ ⟨r1, r2, r3, r4, r5⟩
  refine ⟨r1, r2, r3, ?_, r4, r5⟩
  have hinj : Set.InjOn y.get (Finset.Ico is ie : Set ℕ) := by
    intro a ha b hb hab
    simp only [Finset.coe_Ico, Set.mem_Ico] at ha hb
    by_contra hne
    rcases Nat.lt_or_gt_of_ne hne with h | h
    · have e1 := (r3 a ha.1 ha.2).2.2
      have e2 := (r3 b hb.1 hb.2).2.2
      simp only at e1 e2
      rw [hab] at e1
      rcases r4 a b ha.1 h hb.2 with h' | h' <;> simp only at h' <;> omega
    · have e1 := (r3 a ha.1 ha.2).2.2
      have e2 := (r3 b hb.1 hb.2).2.2
      simp only at e1 e2
      rw [hab] at e1
      rcases r4 b a hb.1 h ha.2 with h' | h' <;> simp only at h' <;> omega
  have hmaps : ∀ a ∈ Finset.Ico is ie, y.get a ∈ Finset.Ico is ie := fun a ha => by
    rw [Finset.mem_Ico] at ha ⊢
    exact ⟨(r3 a ha.1 ha.2).1, (r3 a ha.1 ha.2).2.1⟩
  intro i i1' i2'
  obtain ⟨k, hk, e⟩ := Finset.surj_on_of_inj_on_of_card_le (s := Finset.Ico is ie) (t := Finset.Ico is ie)
    (fun a _ => y.get a) hmaps (fun a b ha hb hab => hinj ha hb hab) le_rfl i (by rw [Finset.mem_Ico]; exact ⟨i1', i2'⟩)
  rw [Finset.mem_Ico] at hk
  exact ⟨k, hk.1, hk.2, e.symm⟩

/-! ### not vacuous -/

example : (lisSortJad (fun _ _ => 9) 1 6 3 (Arr.ofList [8, 1, 3, 0, 3, 1, 8]) (Arr.ofList [8, 8, 8, 8, 8, 8, 8])).map
    (fun r => (r.1.toList, r.2.toList)) = some ([8, 3, 3, 1, 1, 0, 8], [8, 2, 4, 1, 5, 3, 8]) := by decide
/-- the theorem applies: five integers with repetitions and two companions -/
example : ∃ s', lisSortIid 0 4 ((Arr.ofList [3, 1, 3, 0, 2], Arr.ofList [0, 1, 2, 3, 4], Arr.ofList [10, 11, 12, 13, 14]) :
    Arr ℤ × Arr ℕ × Arr ℤ) = some s' ∧ s'.1.get 0 ≤ s'.1.get 4 := by
  obtain ⟨s', h, g, _, _, _, _, hs⟩ := lisSortIid_spec 0 4 ((Arr.ofList [3, 1, 3, 0, 2], Arr.ofList [0, 1, 2, 3, 4],
    Arr.ofList [10, 11, 12, 13, 14]) : Arr ℤ × Arr ℕ × Arr ℤ) (by decide) (by decide) (by decide) (by decide)
  exact ⟨s', h, hs 0 4 (by decide) (by decide) (by decide)⟩

end Lis
