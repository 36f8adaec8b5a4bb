import Verif.Model.Ilut
import Verif.Lemmas.Sainv
import Verif.Lemmas.Ilu
import Mathlib.Algebra.Order.Field.Basic
import Mathlib.Algebra.Order.Group.Abs
import Mathlib.Tactic.Ring
import Mathlib.Tactic.Linarith

/-!
# ILUT: one row of the elimination
-/

namespace Lis
open Finset
variable {R : Type}

/-- positions in use: `0..lenl-1`, `i`, `i+1..i+lenu` -/
def TPos (i : ℕ) (s : TW R) (p : ℕ) : Prop := p < s.lenl ∨ (i ≤ p ∧ p ≤ i + s.lenu)

/-- column `c` occurs in the row -/
def THas (i : ℕ) (s : TW R) (c : ℕ) : Prop := ∃ p, TPos i s p ∧ s.jbuf.get p = c

/-- current value of column `c` among the columns not eliminated yet -/
def TW.cur [Zero R] (s : TW R) (c : ℕ) : R := if s.iw.get c = -1 then 0 else s.w.get (s.iw.get c).toNat

/-- invariant of row `i` after `j` pivots -/
structure TInv (n i j : ℕ) (s : TW R) : Prop where
  jsz : s.jbuf.size = n
  wsz : n ≤ s.w.size
  isz : s.iw.size = n
  ll : s.lenl ≤ i
  lu : i + s.lenu < n
  jl : j ≤ s.lenl
  low : ∀ p, p < s.lenl → s.jbuf.get p < i
  diag : s.jbuf.get i = i
  up : ∀ p, i < p → p ≤ i + s.lenu → i < s.jbuf.get p ∧ s.jbuf.get p < n
  mark : ∀ c, c < n → s.iw.get c ≠ -1 → ∃ p : ℕ, s.iw.get c = p ∧ TPos i s p ∧ j ≤ p ∧ s.jbuf.get p = c
  markP : ∀ p, TPos i s p → j ≤ p → s.iw.get (s.jbuf.get p) = p
  ord : ∀ p q, p < j → p < q → q < s.lenl → s.jbuf.get p < s.jbuf.get q

namespace TInv
variable {n i j : ℕ} {s : TW R}

theorem hi (h : TInv n i j s) : i < n := by have := h.lu; omega

theorem injL (h : TInv n i j s) {p q : ℕ} (hp : p < s.lenl) (hq : q < s.lenl) (he : s.jbuf.get p = s.jbuf.get q) : p = q := by
  rcases Nat.lt_or_ge p j with a | a
  · rcases Nat.lt_trichotomy p q with b | b | b
    · have := h.ord p q a b hq; omega
    · exact b
    · have := h.ord q p (by omega) b hp; omega
  · rcases Nat.lt_or_ge q j with b | b
    · have := h.ord q p b (by omega) hp; omega
    · have h1 := h.markP p (.inl hp) a
      have h2 := h.markP q (.inl hq) b
      rw [he, h2] at h1
      omega

theorem injU (h : TInv n i j s) {p q : ℕ} (hp : i < p) (hp' : p ≤ i + s.lenu) (hq : i < q) (hq' : q ≤ i + s.lenu)
    (he : s.jbuf.get p = s.jbuf.get q) : p = q := by
  have := h.jl
  have := h.ll
  have h1 := h.markP p (.inr ⟨by omega, by omega⟩) (by omega)
  have h2 := h.markP q (.inr ⟨by omega, by omega⟩) (by omega)
  rw [he, h2] at h1
  omega

theorem posn (h : TInv n i j s) {p : ℕ} (hp : TPos i s p) : p < n := by
  have := h.ll
  have := h.lu
  rcases hp with hp | hp <;> omega

theorem coln (h : TInv n i j s) {p : ℕ} (hp : TPos i s p) : s.jbuf.get p < n := by
  have := h.hi
  rcases hp with hp | ⟨h1, h2⟩
  · have := h.low p hp; omega
  · rcases Nat.eq_or_lt_of_le h1 with e | e
    · rw [← e, h.diag]; omega
    · exact (h.up p e h2).2

/-- eliminated columns are no longer marked -/
theorem done (h : TInv n i j s) {p : ℕ} (hp : p < j) : s.iw.get (s.jbuf.get p) = -1 := by
  by_contra hc
  have hj := h.jl
  have hl := h.low p (by omega)
  obtain ⟨q, -, h2, h3, h4⟩ := h.mark _ (h.coln (.inl (by omega))) hc
  rcases h2 with h2 | ⟨h2, h2'⟩
  · have := h.ord p q hp (by omega) h2
    omega
  · rcases Nat.eq_or_lt_of_le h2 with e | e
    · rw [← e, h.diag] at h4; omega
    · have := (h.up q e h2').1; omega

/-- an unmarked column that is not an eliminated one does not occur -/
theorem notHas (h : TInv n i j s) {c : ℕ} (hc : s.iw.get c = -1) (hp : ∀ p, p < j → s.jbuf.get p ≠ c) : ¬ THas i s c := by
  rintro ⟨p, h1, h2⟩
  rcases Nat.lt_or_ge p j with a | a
  · exact hp p a h2
  · have := h.markP p h1 a
    rw [h2, hc] at this
    omega

theorem markI (h : TInv n i j s) : s.iw.get i = i := by
  have := h.jl
  have := h.ll
  have := h.markP i (.inr ⟨le_refl _, by omega⟩) (by omega)
  rwa [h.diag] at this

end TInv

/-- what a step leaves alone -/
structure TKeep (i j : ℕ) (s s' : TW R) : Prop where
  jb : ∀ p, p < j → s'.jbuf.get p = s.jbuf.get p
  w : ∀ p, p < j → s'.w.get p = s.w.get p
  ll : s.lenl ≤ s'.lenl
  has : ∀ c, THas i s c → THas i s' c

theorem TKeep.rfl' {i j : ℕ} {s : TW R} : TKeep i j s s := ⟨fun _ _ => rfl, fun _ _ => rfl, le_refl _, fun _ h => h⟩

theorem TKeep.trans {i j : ℕ} {a b c : TW R} (h : TKeep i j a b) (k : TKeep i j b c) : TKeep i j a c :=
  ⟨fun p hp => by rw [k.jb p hp, h.jb p hp], fun p hp => by rw [k.w p hp, h.w p hp], h.ll.trans k.ll,
    fun c hc => k.has c (h.has c hc)⟩

section zero
variable [Zero R]

theorem TW.cur_none {s : TW R} {c : ℕ} (h : s.iw.get c = -1) : s.cur c = 0 := by
  unfold TW.cur; rw [if_pos h]

theorem TW.cur_some {s : TW R} {c p : ℕ} (h : s.iw.get c = p) : s.cur c = s.w.get p := by
  unfold TW.cur; rw [if_neg (by omega), h]; rfl

/-- the same mark and the same value at it -/
theorem TW.cur_same {s s' : TW R} {c : ℕ} (h : s'.iw.get c = s.iw.get c)
    (hw : s.iw.get c ≠ -1 → s'.w.get (s.iw.get c).toNat = s.w.get (s.iw.get c).toNat) : s'.cur c = s.cur c := by
  unfold TW.cur
  by_cases e : s.iw.get c = -1
  · rw [if_pos e, if_pos (h.trans e)]
  · rw [if_neg e, if_neg (by rw [h]; exact e), h]
    exact hw e

theorem twPushL_spec {n i j : ℕ} {s : TW R} (h : TInv n i j s) {col : ℕ} (t : R) (hc : col < i) (hm : s.iw.get col = -1)
    (hord : ∀ p, p < j → s.jbuf.get p < col) :
    Ok (twPushL col t s) fun s' => TInv n i j s' ∧ TKeep i j s s' ∧
      (∀ c, c < n → s'.cur c = if c = col then t else s.cur c) ∧ s'.jbuf.get s.lenl = col ∧ s'.lenl = s.lenl + 1 ∧
      ∀ c, c ≠ col → s'.iw.get c = s.iw.get c := by
  have hi := h.hi
  have hjl := h.jl
  have hlu := h.lu
  have hne : ∀ p, p < s.lenl → s.jbuf.get p ≠ col := fun p hp he =>
    h.notHas hm (fun q hq => by have := hord q hq; omega) ⟨p, .inl hp, he⟩
  have hroom : s.lenl < i :=
    Listed.room hc h.low (fun k m hk hm => h.injL hk hm) (fun ⟨k, hk, he⟩ => hne k hk he)
  have hjs := h.jsz
  have hws := h.wsz
  have his := h.isz
  unfold twPushL
  simp only [Ok_bind, Ok_wr, Ok_pure]
  refine ⟨by omega, by omega, by omega, ?_⟩
  have hpos : ∀ p, TPos i s p → p ≠ s.lenl := by
    rintro p (hp | hp) <;> omega
  have hmk : ∀ c, c < n → s.iw.get c ≠ -1 → (s.iw.get c).toNat ≠ s.lenl := fun c hc' hc2 => by
    obtain ⟨p, h1, h2, -, -⟩ := h.mark c hc' hc2
    have := hpos p h2
    omega
  refine ⟨⟨by simpa using h.jsz, by simpa using h.wsz, by simpa using h.isz, by simp; omega, by simpa using hlu, by simp; omega, ?_, ?_, ?_, ?_,
    ?_, ?_⟩, ⟨?_, ?_, ?_, ?_⟩, ?_, ?_, ?_, ?_⟩
  · intro p hp
    simp only [Arr.set_get] at hp ⊢
    split_ifs with e
    · exact hc
    · exact h.low p (by omega)
  · simp only [Arr.set_get]
    rw [if_neg (by omega)]
    exact h.diag
  · intro p h1 h2
    simp only [Arr.set_get] at h2 ⊢
    rw [if_neg (by omega)]
    exact h.up p h1 h2
  · intro c hcn hcm
    simp only [Arr.set_get] at hcm ⊢
    by_cases e : c = col
    · subst e
      refine ⟨s.lenl, by simp, .inl (by simp), hjl, by simp⟩
    · rw [if_neg e] at hcm
      obtain ⟨p, h1, h2, h3, h4⟩ := h.mark c hcn hcm
      refine ⟨p, by rw [if_neg e]; exact h1, ?_, h3, by rw [if_neg (hpos p h2)]; exact h4⟩
      rcases h2 with h2 | h2
      · left; simp only; omega
      · exact .inr h2
  · intro p hp hj
    simp only [Arr.set_get]
    by_cases e : p = s.lenl
    · rw [if_pos e, if_pos rfl, e]
    · rw [if_neg e]
      have hp' : TPos i s p := by
        rcases hp with hp | hp
        · left; simp only at hp; omega
        · exact .inr hp
      have hmp := h.markP p hp' hj
      have hn : s.jbuf.get p ≠ col := fun he => by
        rw [he, hm] at hmp; omega
      rw [if_neg hn]
      exact hmp
  · intro p q hp hpq hq
    simp only [Arr.set_get] at hq ⊢
    rw [if_neg (by omega)]
    split_ifs with e
    · exact hord p hp
    · exact h.ord p q hp hpq (by omega)
  · intro p hp
    simp only [Arr.set_get]
    rw [if_neg (by omega)]
  · intro p hp
    simp only [Arr.set_get]
    rw [if_neg (by omega)]
  · simp
  · rintro c ⟨p, h1, h2⟩
    refine ⟨p, ?_, by simp only [Arr.set_get]; rw [if_neg (hpos p h1)]; exact h2⟩
    rcases h1 with h1 | h1
    · left; simp only; omega
    · exact .inr h1
  · intro c hcn
    by_cases e : c = col
    · rw [if_pos e, TW.cur_some (p := s.lenl) (by simp only [e, Arr.set_get_self])]
      simp only [Arr.set_get_self]
    · rw [if_neg e]
      refine TW.cur_same (by simp only [Arr.set_get]; rw [if_neg e]) fun e1 => ?_
      simp only [Arr.set_get]
      rw [if_neg (hmk c hcn e1)]
  · simp only [Arr.set_get_self]
  · trivial
  · intro c hc'
    simp only [Arr.set_get]
    rw [if_neg hc']

theorem twPushU_spec {n i j : ℕ} {s : TW R} (h : TInv n i j s) {col : ℕ} (t : R) (hc : i < col) (hcn : col < n)
    (hm : s.iw.get col = -1) :
    Ok (twPushU i col t s) fun s' => TInv n i j s' ∧ TKeep i j s s' ∧
      (∀ c, c < n → s'.cur c = if c = col then t else s.cur c) ∧ s'.jbuf.get (i + (s.lenu + 1)) = col ∧
      s'.lenu = s.lenu + 1 ∧ s'.lenl = s.lenl ∧ ∀ c, c ≠ col → s'.iw.get c = s.iw.get c := by
  have hi := h.hi
  have hjl := h.jl
  have hll := h.ll
  have hlu := h.lu
  have hroom : s.lenu < n - (i + 1) := by
    refine Listed.room (il := ⟨n, fun k => s.jbuf.get (i + (k + 1)) - (i + 1)⟩) (c := col - (i + 1)) (by omega) ?_ ?_ ?_
    · intro k hk
      have := h.up (i + (k + 1)) (by omega) (by omega)
      simp only
      omega
    · intro k m hk hm he
      simp only at he
      have h1 := h.up (i + (k + 1)) (by omega) (by omega)
      have h2 := h.up (i + (m + 1)) (by omega) (by omega)
      have := h.injU (p := i + (k + 1)) (q := i + (m + 1)) (by omega) (by omega) (by omega) (by omega) (by omega)
      omega
    · rintro ⟨k, hk, he⟩
      simp only at he
      have h1 := h.up (i + (k + 1)) (by omega) (by omega)
      have h2 := h.markP (i + (k + 1)) (.inr ⟨by omega, by omega⟩) (by omega)
      rw [show s.jbuf.get (i + (k + 1)) = col by omega, hm] at h2
      omega
  have hjs := h.jsz
  have hws := h.wsz
  have his := h.isz
  unfold twPushU
  simp only [Ok_bind, Ok_wr, Ok_pure]
  refine ⟨by omega, by omega, by omega, ?_⟩
  have hpos : ∀ p, TPos i s p → p ≠ i + (s.lenu + 1) := by
    rintro p (hp | hp) <;> omega
  have hmk : ∀ c, c < n → s.iw.get c ≠ -1 → (s.iw.get c).toNat ≠ i + (s.lenu + 1) := fun c hc' hc2 => by
    obtain ⟨p, h1, h2, -, -⟩ := h.mark c hc' hc2
    have := hpos p h2
    omega
  refine ⟨⟨by simpa using h.jsz, by simpa using h.wsz, by simpa using h.isz, by simpa using hll, by simp; omega, by simpa using hjl, ?_, ?_, ?_, ?_,
    ?_, ?_⟩, ⟨?_, ?_, ?_, ?_⟩, ?_, ?_, ?_, ?_, ?_⟩
  · intro p hp
    simp only [Arr.set_get] at hp ⊢
    rw [if_neg (by omega)]
    exact h.low p hp
  · simp only [Arr.set_get]
    rw [if_neg (by omega)]
    exact h.diag
  · intro p h1 h2
    simp only [Arr.set_get] at h2 ⊢
    split_ifs with e
    · omega
    · exact h.up p h1 (by omega)
  · intro c hcn' hcm
    simp only [Arr.set_get] at hcm ⊢
    by_cases e : c = col
    · subst e
      refine ⟨i + (s.lenu + 1), by simp, .inr ⟨by omega, by simp⟩, by omega, by simp⟩
    · rw [if_neg e] at hcm
      obtain ⟨p, h1, h2, h3, h4⟩ := h.mark c hcn' hcm
      refine ⟨p, by rw [if_neg e]; exact h1, ?_, h3, by rw [if_neg (hpos p h2)]; exact h4⟩
      rcases h2 with h2 | h2
      · exact .inl h2
      · right; simp only; omega
  · intro p hp hj
    simp only [Arr.set_get]
    by_cases e : p = i + (s.lenu + 1)
    · rw [if_pos e, if_pos rfl, e]
    · rw [if_neg e]
      have hp' : TPos i s p := by
        rcases hp with hp | hp
        · exact .inl hp
        · right; simp only at hp; omega
      have hmp := h.markP p hp' hj
      have hn : s.jbuf.get p ≠ col := fun he => by
        rw [he, hm] at hmp; omega
      rw [if_neg hn]
      exact hmp
  · intro p q hp hpq hq
    simp only [Arr.set_get] at hq ⊢
    rw [if_neg (by omega), if_neg (by omega)]
    exact h.ord p q hp hpq hq
  · intro p hp
    simp only [Arr.set_get]
    rw [if_neg (by omega)]
  · intro p hp
    simp only [Arr.set_get]
    rw [if_neg (by omega)]
  · simp
  · rintro c ⟨p, h1, h2⟩
    refine ⟨p, ?_, by simp only [Arr.set_get]; rw [if_neg (hpos p h1)]; exact h2⟩
    rcases h1 with h1 | h1
    · exact .inl h1
    · right; simp only; omega
  · intro c hcn'
    by_cases e : c = col
    · rw [if_pos e, TW.cur_some (p := i + (s.lenu + 1)) (by simp only [e, Arr.set_get_self])]
      simp only [Arr.set_get_self]
    · rw [if_neg e]
      refine TW.cur_same (by simp only [Arr.set_get]; rw [if_neg e]) fun e1 => ?_
      simp only [Arr.set_get]
      rw [if_neg (hmk c hcn' e1)]
  · simp only [Arr.set_get_self]
  · trivial
  · trivial
  · intro c hc'
    simp only [Arr.set_get]
    rw [if_neg hc']

/-- a change of the value at a marked column -/
theorem TInv.setw {n i j : ℕ} {s : TW R} (h : TInv n i j s) {col : ℕ} (t : R) (hcn : col < n) (hm : s.iw.get col ≠ -1) :
    0 ≤ s.iw.get col ∧ (s.iw.get col).toNat < s.w.size ∧ s.w.get (s.iw.get col).toNat = s.cur col ∧
      TInv n i j { s with w := s.w.set (s.iw.get col).toNat t } ∧
      TKeep i j s { s with w := s.w.set (s.iw.get col).toNat t } ∧
      (∀ c, c < n → TW.cur { s with w := s.w.set (s.iw.get col).toNat t } c = if c = col then t else s.cur c) := by
  obtain ⟨p, h1, h2, h3, h4⟩ := h.mark col hcn hm
  have hpn := h.posn h2
  have hws := h.wsz
  refine ⟨by omega, by omega, ?_, ⟨h.jsz, by simpa using h.wsz, h.isz, h.ll, h.lu, h.jl, h.low, h.diag, h.up, h.mark, h.markP, h.ord⟩,
    ⟨fun _ _ => rfl, fun q hq => ?_, le_refl _, fun _ hc => hc⟩, fun c hc => ?_⟩
  · unfold TW.cur; rw [if_neg hm]
  · simp only [Arr.set_get]
    rw [if_neg (by omega)]
  · by_cases e : c = col
    · rw [if_pos e, e, TW.cur_some (p := p) (by simp only; exact h1)]
      simp only [h1, Int.toNat_natCast, Arr.set_get_self]
    · rw [if_neg e]
      refine TW.cur_same rfl fun e1 => ?_
      obtain ⟨q, g1, g2, g3, g4⟩ := h.mark c hc e1
      have : q ≠ p := fun hqp => e (by rw [← g4, ← h4, hqp])
      simp only [Arr.set_get]
      rw [if_neg (by omega)]

theorem twMin_spec {n i j : ℕ} {s : TW R} (h : TInv n i j s) (hj : j < s.lenl) :
    Ok (twMin j s) fun p => j ≤ p.2 ∧ p.2 < s.lenl ∧ s.jbuf.get p.2 = p.1 ∧
      ∀ k, j ≤ k → k < s.lenl → p.1 ≤ s.jbuf.get k := by
  have := h.jsz
  have := h.ll
  have := h.hi
  unfold twMin
  simp only [Ok_bind, Ok_rd]
  refine ⟨by omega, ?_⟩
  refine Ok_loop_le (fun m p => j ≤ p.2 ∧ p.2 < s.lenl ∧ s.jbuf.get p.2 = p.1 ∧ ∀ k, j ≤ k → k < m → p.1 ≤ s.jbuf.get k) (by omega)
    ⟨le_refl _, hj, rfl, fun k h1 h2 => by rw [show k = j by omega]⟩ ?_ fun p hp => hp
  rintro m ⟨c, q⟩ h1 h2 ⟨g1, g2, g3, g4⟩
  simp only at g1 g2 g3 g4
  simp only [Ok_bind, Ok_rd]
  refine ⟨by omega, ?_⟩
  split_ifs with hc
  · rw [Ok_pure]
    refine ⟨by simp only; omega, h2, rfl, fun k k1 k2 => ?_⟩
    rcases Nat.lt_or_ge k m with a | a
    · have := g4 k k1 a; simp only; omega
    · rw [show k = m by omega]
  · rw [Ok_pure]
    refine ⟨g1, g2, g3, fun k k1 k2 => ?_⟩
    rcases Nat.lt_or_ge k m with a | a
    · exact g4 k k1 a
    · rw [show k = m by omega]; simp only; omega

theorem twSwap_spec {n i j : ℕ} {s : TW R} (h : TInv n i j s) {p : ℕ × ℕ} (h1 : j ≤ p.2) (h2 : p.2 < s.lenl)
    (h3 : s.jbuf.get p.2 = p.1) (h4 : ∀ k, j ≤ k → k < s.lenl → p.1 ≤ s.jbuf.get k) :
    Ok (twSwap j p s) fun s' => TInv n i j s' ∧ TKeep i j s s' ∧ (∀ c, c < n → s'.cur c = s.cur c) ∧
      s'.jbuf.get j = p.1 ∧ s'.lenl = s.lenl ∧ ∀ k, j ≤ k → k < s.lenl → p.1 ≤ s'.jbuf.get k := by
  obtain ⟨r, m⟩ := p
  simp only at h1 h2 h3 h4
  have hll := h.ll
  have hi := h.hi
  unfold twSwap
  simp only
  by_cases e : m = j
  · rw [if_pos e, Ok_some]
    exact ⟨h, TKeep.rfl', fun _ _ => rfl, by rw [← e]; exact h3, rfl, h4⟩
  · rw [if_neg e]
    have hjs := h.jsz
    have hws := h.wsz
    have his := h.isz
    have c1 := h.low m h2
    have c2 := h.low j (by omega)
    have hne : s.jbuf.get j ≠ r := fun he => e (h.injL h2 (by omega) (by rw [h3, he]))
    have m1 := h.markP m (.inl h2) h1
    have m2 := h.markP j (.inl (by omega)) (le_refl _)
    rw [h3] at m1
    simp only [Ok_bind, Ok_rd, Ok_wr, Ok_pure, Arr.set_size]
    refine ⟨by omega, by omega, by omega, by omega, by omega, by omega, by omega, by omega, by omega, by omega, ?_⟩
    -- the positions other than `j`, `m` are untouched; those two are exchanged
    have jb : ∀ q, ((s.jbuf.set j (s.jbuf.get m)).set m (s.jbuf.get j)).get q =
        if q = m then s.jbuf.get j else if q = j then r else s.jbuf.get q := fun q => by
      simp only [Arr.set_get, h3]
    have ib : ∀ c, ((s.iw.set r (j : ℤ)).set (s.jbuf.get j) (m : ℤ)).get c =
        if c = s.jbuf.get j then (m : ℤ) else if c = r then (j : ℤ) else s.iw.get c := fun c => by
      simp only [Arr.set_get]
    have wb : ∀ q, ((s.w.set j (s.w.get m)).set m (s.w.get j)).get q =
        if q = m then s.w.get j else if q = j then s.w.get m else s.w.get q := fun q => by
      simp only [Arr.set_get]
    have oth : ∀ q, TPos i s q → q ≠ m → q ≠ j → j ≤ q → s.jbuf.get q ≠ r ∧ s.jbuf.get q ≠ s.jbuf.get j := fun q hq q1 q2 q3 => by
      have mq := h.markP q hq q3
      constructor
      · intro he; rw [he, m1] at mq; omega
      · intro he; rw [he, m2] at mq; omega
    have hmin := h4 j (le_refl _) (by omega)
    refine ⟨⟨by simpa using hjs, by simpa using hws, by simpa using his, hll, h.lu, h.jl, ?_, ?_, ?_, ?_, ?_, ?_⟩, ⟨?_, ?_, le_refl _, ?_⟩, ?_, ?_, trivial, ?_⟩
    · intro q hq
      simp only [jb]
      split_ifs
      · omega
      · omega
      · exact h.low q hq
    · simp only [jb]
      rw [if_neg (by omega), if_neg (by omega)]
      exact h.diag
    · intro q q1 q2
      simp only [jb]
      rw [if_neg (by omega), if_neg (by omega)]
      exact h.up q q1 q2
    · intro c hc hcm
      simp only [ib] at hcm ⊢
      by_cases e1 : c = s.jbuf.get j
      · exact ⟨m, by rw [if_pos e1], .inl h2, by omega, by rw [jb, if_pos rfl, e1]⟩
      · rw [if_neg e1] at hcm ⊢
        by_cases e2 : c = r
        · exact ⟨j, by rw [if_pos e2], .inl (by simp only; omega), le_refl _, by rw [jb, if_neg (Ne.symm e), if_pos rfl, e2]⟩
        · rw [if_neg e2] at hcm ⊢
          obtain ⟨q, g1, g2, g3, g4⟩ := h.mark c hc hcm
          refine ⟨q, g1, g2, g3, ?_⟩
          rw [jb, if_neg, if_neg, g4]
          · rintro rfl; exact e1 g4.symm
          · rintro rfl; exact e2 (by rw [← g4, h3])
    · intro q hq hjq
      simp only [jb, ib]
      by_cases e1 : q = m
      · rw [if_pos e1, if_pos rfl, e1]
      · rw [if_neg e1]
        by_cases e2 : q = j
        · rw [if_pos e2, if_neg (fun he => hne he.symm), if_pos rfl, e2]
        · rw [if_neg e2]
          obtain ⟨o1, o2⟩ := oth q hq e1 e2 hjq
          rw [if_neg o2, if_neg o1]
          exact h.markP q hq hjq
    · intro q q' g1 g2 g3
      simp only [jb]
      rw [if_neg (by omega), if_neg (by omega)]
      split_ifs
      · exact h.ord q j g1 (by omega) (by omega)
      · have := h.ord q m g1 (by omega) (by omega)
        omega
      · exact h.ord q q' g1 g2 g3
    · intro q hq
      simp only [jb]
      rw [if_neg (by omega), if_neg (by omega)]
    · intro q hq
      simp only [wb]
      rw [if_neg (by omega), if_neg (by omega)]
    · rintro c ⟨q, g1, g2⟩
      by_cases e1 : q = m
      · exact ⟨j, .inl (by simp only; omega), by simp only [jb]; rw [if_neg (Ne.symm e), if_pos trivial, ← g2, e1, h3]⟩
      · by_cases e2 : q = j
        · exact ⟨m, .inl h2, by simp only [jb]; rw [if_pos trivial, ← g2, e2]⟩
        · exact ⟨q, g1, by simp only [jb]; rw [if_neg e1, if_neg e2, g2]⟩
    · intro c hc
      by_cases e1 : c = s.jbuf.get j
      · rw [TW.cur_some (p := m) (by simp only [ib]; rw [if_pos e1]), TW.cur_some (p := j) (by rw [e1]; exact m2)]
        simp only [wb]
        rw [if_pos trivial]
      · by_cases e2 : c = r
        · rw [TW.cur_some (p := j) (by simp only [ib]; rw [if_neg e1, if_pos e2]), TW.cur_some (p := m) (by rw [e2]; exact m1)]
          simp only [wb]
          rw [if_neg (Ne.symm e), if_pos trivial]
        · refine TW.cur_same (by simp only [ib]; rw [if_neg e1, if_neg e2]) fun e3 => ?_
          obtain ⟨q, g1, g2, g3, g4⟩ := h.mark c hc e3
          simp only [wb, g1, Int.toNat_natCast]
          rw [if_neg, if_neg]
          · rintro rfl; exact e1 g4.symm
          · rintro rfl; exact e2 (by rw [← g4, h3])
    · simp only [jb]
      rw [if_neg (Ne.symm e), if_pos trivial]
    · intro k k1 k2
      simp only [jb]
      split_ifs
      · exact hmin
      · exact le_refl _
      · exact h4 k k1 k2

/-- column `jbuf[j]`, the smallest one left, is taken out and its value replaced by the multiplier -/
theorem TInv.take {n i j : ℕ} {s : TW R} (h : TInv n i j s) (hj : j < s.lenl) {r : ℕ} (hr : s.jbuf.get j = r)
    (hmin : ∀ k, j ≤ k → k < s.lenl → r ≤ s.jbuf.get k) (f : R) :
    s.w.get j = s.cur r ∧ TInv n i (j + 1) { s with w := s.w.set j f, iw := s.iw.set r (-1) } ∧
      TKeep i j s { s with w := s.w.set j f, iw := s.iw.set r (-1) } ∧
      (∀ c, c < n → TW.cur { s with w := s.w.set j f, iw := s.iw.set r (-1) } c = if c = r then 0 else s.cur c) := by
  have hll := h.ll
  have hm := h.markP j (.inl hj) (le_refl _)
  rw [hr] at hm
  refine ⟨(TW.cur_some hm).symm, ⟨h.jsz, by simpa using h.wsz, by simpa using h.isz, hll, h.lu, hj, h.low, h.diag, h.up, ?_, ?_, ?_⟩,
    ⟨fun _ _ => rfl, fun q hq => ?_, le_refl _, fun _ hc => hc⟩, ?_⟩
  · intro c hc hcm
    simp only [Arr.set_get] at hcm ⊢
    by_cases e : c = r
    · rw [if_pos e] at hcm; exact absurd rfl hcm
    · rw [if_neg e] at hcm ⊢
      obtain ⟨q, g1, g2, g3, g4⟩ := h.mark c hc hcm
      refine ⟨q, g1, g2, ?_, g4⟩
      rcases Nat.eq_or_lt_of_le g3 with a | a
      · exact absurd (by rw [← g4, ← a, hr]) e
      · exact a
  · intro q hq hjq
    have g := h.markP q hq (by omega)
    simp only [Arr.set_get]
    rw [if_neg]
    · exact g
    · intro he
      rw [he, hm] at g
      omega
  · intro p q g1 g2 g3
    simp only at g3 ⊢
    rcases Nat.lt_or_ge p j with a | a
    · exact h.ord p q a g2 g3
    · have e : p = j := by omega
      subst e
      have := hmin q (by omega) g3
      have hne : s.jbuf.get p ≠ s.jbuf.get q := fun he => by have := h.injL hj g3 he; omega
      omega
  · simp only [Arr.set_get]
    rw [if_neg (by omega)]
  · intro c hc
    by_cases e : c = r
    · rw [if_pos e]
      exact TW.cur_none (by simp only [e, Arr.set_get_self])
    · rw [if_neg e]
      refine TW.cur_same (by simp only [Arr.set_get]; rw [if_neg e]) fun e3 => ?_
      obtain ⟨q, g1, g2, g3, g4⟩ := h.mark c hc e3
      simp only [Arr.set_get, g1, Int.toNat_natCast]
      rw [if_neg]
      rintro rfl
      exact e (by rw [← g4, hr])

end zero

section scan
variable [AddCommMonoid R]

theorem twScan_spec {A : Csr R} (hA : A.WF) (hnp : A.np = A.n) (hnd : A.NoDup) {i : ℕ} (hi : i < A.n) {s : TW R}
    (hj : s.jbuf.size = A.n) (hw : A.n ≤ s.w.size) (hz : s.iw.size = A.n) (hiw : ∀ c, c < A.n → s.iw.get c = -1) :
    Ok (twScan A i s) fun s' => TInv A.n i 0 s' ∧ (∀ c, c < A.n → s'.cur c = A.entry i c) ∧
      ∀ c, A.Stored i c → THas i s' c := by
  have hps := hA.ptr.size
  have hm := hA.ptr.mono i hi
  have hle := hA.ptr.le_nnz (i := i + 1) (by omega)
  unfold twScan
  simp only [Ok_bind, Ok_rd, Ok_wr]
  refine ⟨by omega, by omega, by omega, by omega, by omega, ?_⟩
  refine Ok_loop_le (fun k (s : TW R) => TInv A.n i 0 s ∧
    (∀ c, c < A.n → s.cur c = ∑ t ∈ Ico (A.ptr.get i) k, if A.index.get t = c then A.value.get t else 0) ∧
    (∀ t, A.ptr.get i ≤ t → t < k → THas i s (A.index.get t)) ∧
    (∀ c, c < A.n → s.iw.get c ≠ -1 → c = i ∨ ∃ t, A.ptr.get i ≤ t ∧ t < k ∧ A.index.get t = c)) hm ?_ ?_ ?_
  · refine ⟨⟨by simpa using hj, by simpa using hw, by simpa using hz, Nat.zero_le _, by simpa using hi, Nat.zero_le _, ?_, by simp, ?_, ?_, ?_, ?_⟩,
      ?_, ?_, ?_⟩
    · intro p hp; simp at hp
    · intro p h1 h2; simp at h2; omega
    · intro c hc hcm
      simp only [Arr.set_get] at hcm ⊢
      by_cases e : c = i
      · exact ⟨i, by rw [if_pos e], .inr ⟨le_refl _, by simp⟩, Nat.zero_le _, by rw [if_pos rfl, e]⟩
      · rw [if_neg e] at hcm; exact absurd (hiw c hc) hcm
    · intro p hp _
      have : p = i := by
        rcases hp with hp | ⟨h1, h2⟩
        · simp at hp
        · simp at h2; omega
      simp [this]
    · intro p q hp; omega
    · intro c hc
      rw [Ico_self, sum_empty]
      by_cases e : c = i
      · rw [TW.cur_some (p := i) (by simp [e])]; simp
      · exact TW.cur_none (by simp only [Arr.set_get]; rw [if_neg e]; exact hiw c hc)
    · intro t h1 h2; omega
    · intro c hc hcm
      simp only [Arr.set_get] at hcm
      by_cases e : c = i
      · exact .inl e
      · rw [if_neg e] at hcm; exact absurd (hiw c hc) hcm
  · rintro k s h1 h2 ⟨g1, g2, g3, g4⟩
    have his := hA.isz
    have hvs := hA.vsz
    have hcol : A.index.get k < A.n := hnp ▸ hA.idx k (by omega)
    have hnew : ∀ t, A.ptr.get i ≤ t → t < k → A.index.get t ≠ A.index.get k := fun t t1 t2 he => by
      have := hnd i hi t k t1 (by omega) h1 h2 he
      omega
    have h0 : s.cur (A.index.get k) = 0 := by
      rw [g2 _ hcol]
      refine sum_eq_zero fun t ht => if_neg (hnew t (mem_Ico.1 ht).1 (mem_Ico.1 ht).2)
    have hum : A.index.get k ≠ i → s.iw.get (A.index.get k) = -1 := fun hne => by
      by_contra hc
      rcases g4 _ hcol hc with e | ⟨t, t1, t2, t3⟩
      · exact hne e
      · exact hnew t t1 t2 t3
    -- common conclusion
    have fin : ∀ s' : TW R, TInv A.n i 0 s' → TKeep i 0 s s' →
        (∀ c, c < A.n → s'.cur c = if c = A.index.get k then A.value.get k else s.cur c) → THas i s' (A.index.get k) →
        (∀ c, c ≠ A.index.get k → s'.iw.get c = s.iw.get c) →
        TInv A.n i 0 s' ∧
          (∀ c, c < A.n → s'.cur c = ∑ t ∈ Ico (A.ptr.get i) (k + 1), if A.index.get t = c then A.value.get t else 0) ∧
          (∀ t, A.ptr.get i ≤ t → t < k + 1 → THas i s' (A.index.get t)) ∧
          (∀ c, c < A.n → s'.iw.get c ≠ -1 → c = i ∨ ∃ t, A.ptr.get i ≤ t ∧ t < k + 1 ∧ A.index.get t = c) := by
      intro s' f1 f2 f3 f4 f5
      refine ⟨f1, fun c hc => ?_, fun t t1 t2 => ?_, fun c hc hcm => ?_⟩
      · rw [f3 c hc, sum_Ico_succ_top h1, ← g2 c hc]
        by_cases e : c = A.index.get k
        · rw [if_pos e, if_pos e.symm, e, h0, zero_add]
        · rw [if_neg e, if_neg (Ne.symm e), add_zero]
      · rcases Nat.lt_or_ge t k with a | a
        · exact f2.has _ (g3 t t1 a)
        · rw [show t = k by omega]; exact f4
      · by_cases e : c = A.index.get k
        · exact .inr ⟨k, h1, by omega, e.symm⟩
        · rw [f5 c e] at hcm
          rcases g4 c hc hcm with e | ⟨t, t1, t2, t3⟩
          · exact .inl e
          · exact .inr ⟨t, t1, by omega, t3⟩
    simp only [Ok_bind, Ok_rd]
    refine ⟨by omega, by omega, ?_⟩
    split_ifs with c1 c2
    · refine (twPushL_spec g1 _ c1 (hum (by omega)) (fun p hp => by omega)).mono ?_
      rintro s' ⟨f1, f2, f3, f4, f5, f6⟩
      exact fin s' f1 f2 f3 ⟨s.lenl, .inl (by omega), f4⟩ f6
    · have hmk := g1.markI
      have hne : s.iw.get (A.index.get k) ≠ -1 := by rw [c2, hmk]; omega
      obtain ⟨e1, e2, e3, f1, f2, f3⟩ := g1.setw (A.value.get k) hcol hne
      simp only [Ok_bind, Ok_wr, Ok_pure]
      have hi' : (s.iw.get (A.index.get k)).toNat = i := by rw [c2, hmk]; rfl
      rw [hi'] at f1 f2 f3 e2
      refine ⟨by omega, ?_⟩
      exact fin _ f1 f2 f3 ⟨i, .inr ⟨le_refl _, by simp⟩, by simp only [g1.diag, c2]⟩ (fun _ _ => rfl)
    · refine (twPushU_spec g1 _ (by omega) hcol (hum (by omega))).mono ?_
      rintro s' ⟨f1, f2, f3, f4, f5, f6, f7⟩
      exact fin s' f1 f2 f3 ⟨_, .inr ⟨by omega, by omega⟩, f4⟩ f7
  · rintro s ⟨g1, g2, g3, g4⟩
    refine ⟨g1, fun c hc => g2 c hc, ?_⟩
    rintro c ⟨k, k1, k2, k3⟩
    rw [← k3]
    exact g3 k k1 k2

end scan

end Lis
