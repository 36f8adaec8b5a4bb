import Verif.Base.Sum
import Mathlib.Algebra.BigOperators.Group.List.Basic

/-! Lists of stored elements, counting and scattering by key (the pattern of all conversions). -/

namespace Lis
open Finset

section bykey
variable {α : Type}

/-- payloads of the elements with key `c`, in order -/
def byKey (c : ℕ) (L : List (ℕ × α)) : List α :=
  L.filterMap fun e => if e.1 = c then some e.2 else none

@[simp] theorem byKey_nil (c : ℕ) : byKey c ([] : List (ℕ × α)) = [] := rfl
theorem byKey_append (c : ℕ) (L M : List (ℕ × α)) : byKey c (L ++ M) = byKey c L ++ byKey c M := by
  simp [byKey]
theorem byKey_single (c : ℕ) (e : ℕ × α) : byKey c [e] = if e.1 = c then [e.2] else [] := by
  unfold byKey; split <;> simp_all

theorem byKey_snoc_self (L : List (ℕ × α)) (e : ℕ × α) :
    byKey e.1 (L ++ [e]) = byKey e.1 L ++ [e.2] := by simp [byKey_append, byKey_single]
theorem byKey_snoc_ne (L : List (ℕ × α)) (e : ℕ × α) {c : ℕ} (h : e.1 ≠ c) :
    byKey c (L ++ [e]) = byKey c L := by simp [byKey_append, byKey_single, h]

theorem byKey_prefix {c : ℕ} {L M : List (ℕ × α)} (h : L <+: M) :
    (byKey c L).length ≤ (byKey c M).length := by
  obtain ⟨t, rfl⟩ := h
  simp [byKey_append]

/-- sums over `byKey` -/
theorem byKey_sum {R : Type*} [AddCommMonoid R] (c : ℕ) (L : List (ℕ × α)) (f : α → R) :
    ((byKey c L).map f).sum = (L.map fun e => if e.1 = c then f e.2 else 0).sum := by
  induction L with
  | nil => rfl
  | cons e L ih =>
    rw [show e :: L = [e] ++ L from rfl, byKey_append, byKey_single, List.map_append, List.map_append,
      List.sum_append, List.sum_append, ih]
    split <;> simp_all

/-- segment starts for keys `< m` -/
structure Segs (m : ℕ) (p : ℕ → ℕ) (full : List (ℕ × α)) : Prop where
  succ : ∀ c, c < m → p (c + 1) = p c + (byKey c full).length

theorem Segs.mono {m : ℕ} {p : ℕ → ℕ} {full : List (ℕ × α)} (h : Segs m p full) {a b : ℕ}
    (hab : a ≤ b) (hb : b ≤ m) : p a ≤ p b := by
  induction b with
  | zero => rw [show a = 0 by omega]
  | succ b ih =>
    rcases Nat.lt_or_ge a (b + 1) with h' | h'
    · exact (ih (by omega) (by omega)).trans (by rw [h.succ b (by omega)]; omega)
    · rw [show a = b + 1 by omega]

/-- state while scattering: the elements of the prefix `L` are in place -/
structure Scat (m : ℕ) (p : ℕ → ℕ) (L : List (ℕ × α)) (iw : ℕ → ℕ) (buf : ℕ → α) : Prop where
  pos : ∀ c, c < m → iw c = p c + (byKey c L).length
  put : ∀ c, c < m → ∀ q (h : q < (byKey c L).length), buf (p c + q) = (byKey c L)[q]

theorem Scat.nil {m : ℕ} {p iw : ℕ → ℕ} {buf : ℕ → α} (h : ∀ c, c < m → iw c = p c) :
    Scat m p [] iw buf := ⟨fun c hc => by simp [h c hc], fun c _ q hq => by simp at hq⟩

/-- position of the next element -/
theorem Scat.lt {m : ℕ} {p : ℕ → ℕ} {full L : List (ℕ × α)} {e : ℕ × α} {iw : ℕ → ℕ} {buf : ℕ → α}
    (hs : Segs m p full) (h : Scat m p L iw buf) (hpre : L ++ [e] <+: full) (he : e.1 < m) :
    iw e.1 < p (e.1 + 1) := by
  rw [hs.succ _ he, h.pos _ he]
  have := byKey_prefix (c := e.1) hpre
  rw [byKey_snoc_self] at this
  simp at this; omega

theorem Scat.lt_end {m : ℕ} {p : ℕ → ℕ} {full L : List (ℕ × α)} {e : ℕ × α} {iw : ℕ → ℕ} {buf : ℕ → α}
    (hs : Segs m p full) (h : Scat m p L iw buf) (hpre : L ++ [e] <+: full) (he : e.1 < m) :
    iw e.1 < p m :=
  (h.lt hs hpre he).trans_le (hs.mono he le_rfl)

theorem Scat.step {m : ℕ} {p : ℕ → ℕ} {full L : List (ℕ × α)} {e : ℕ × α} {iw iw' : ℕ → ℕ}
    {buf buf' : ℕ → α} (hs : Segs m p full) (h : Scat m p L iw buf) (hpre : L ++ [e] <+: full)
    (he : e.1 < m) (hiw : ∀ c, iw' c = if c = e.1 then iw e.1 + 1 else iw c)
    (hbuf : ∀ q, buf' q = if q = iw e.1 then e.2 else buf q) : Scat m p (L ++ [e]) iw' buf' := by
  have hpe := h.pos e.1 he
  have hlt := h.lt hs hpre he
  refine ⟨fun c hc => ?_, fun c hc q hq => ?_⟩
  · rw [hiw]
    split
    · next hce => subst hce; rw [byKey_snoc_self, hpe]; simp; omega
    · next hce => rw [byKey_snoc_ne _ _ (fun hh => hce hh.symm)]; exact h.pos c hc
  · rw [hbuf]
    by_cases hce : c = e.1
    · subst hce
      simp only [byKey_snoc_self] at hq ⊢
      simp only [List.length_append, List.length_singleton] at hq
      by_cases hql : q = (byKey e.1 L).length
      · subst hql; rw [if_pos hpe.symm]; simp
      · rw [if_neg (by omega), h.put _ hc q (by omega), List.getElem_append_left (by omega)]
    · have hne : e.1 ≠ c := fun hh => hce hh.symm
      simp only [byKey_snoc_ne _ _ hne] at hq ⊢
      rw [if_neg, h.put c hc q hq]
      have hpre' : L <+: full := (List.prefix_append L [e]).trans hpre
      have hcl := byKey_prefix (c := c) hpre'
      have hcs := hs.succ c hc
      rcases Nat.lt_or_ge c e.1 with hlt' | hge
      · have := hs.mono (a := c + 1) (b := e.1) (by omega) (by omega); omega
      · have := hs.mono (a := e.1 + 1) (b := c) (by omega) (by omega); omega

end bykey

section sums
variable {α : Type} {R : Type*} [AddCommMonoid R]

theorem sum_Ico_list (l : List α) (f : α → R) (g : ℕ → R) (a b : ℕ) (hb : b = a + l.length)
    (h : ∀ q (hq : q < l.length), g (a + q) = f l[q]) : ∑ p ∈ Ico a b, g p = (l.map f).sum := by
  subst hb
  induction l using List.reverseRecOn with
  | nil => simp
  | append_singleton l x ih =>
    rw [List.map_append, List.sum_append, ← ih]
    · rw [List.length_append, ← Nat.add_assoc, List.length_singleton,
        sum_Ico_succ_top (Nat.le_add_right _ _), h l.length (by simp)]
      simp
    · intro q hq
      rw [h q (by simp; omega), List.getElem_append_left hq]

/-- what a scattered buffer sums to -/
theorem Scat.sum {m : ℕ} {p : ℕ → ℕ} {full : List (ℕ × α)} {iw : ℕ → ℕ} {buf : ℕ → α}
    (hs : Segs m p full) (h : Scat m p full iw buf) {c : ℕ} (hc : c < m) (f : α → R) :
    ∑ q ∈ Ico (p c) (p (c + 1)), f (buf q) = (full.map fun e => if e.1 = c then f e.2 else 0).sum := by
  rw [← byKey_sum]
  exact sum_Ico_list _ _ _ _ _ (hs.succ c hc) fun q hq => by rw [h.put c hc q hq]

/-- `f(k)` listed for `k = 0,1,…` -/
theorem map_range_sum (n : ℕ) (f : ℕ → R) : ((List.range n).map f).sum = ∑ k ∈ range n, f k := by
  induction n with
  | zero => rfl
  | succ n ih => rw [List.range_succ, List.map_append, List.sum_append, sum_range_succ, ih]; simp

theorem flatMap_range_sum {β : Type} (n : ℕ) (L : ℕ → List β) (f : β → R) :
    (((List.range n).flatMap L).map f).sum = ∑ i ∈ range n, ((L i).map f).sum := by
  induction n with
  | zero => rfl
  | succ n ih =>
    rw [List.range_succ, List.flatMap_append, List.map_append, List.sum_append, sum_range_succ, ih]
    simp
end sums

section rows
variable {α : Type}

/-- `L 0 ++ L 1 ++ … ++ L (n-1)` -/
def concatRows (n : ℕ) (L : ℕ → List α) : List α := (List.range n).flatMap L

@[simp] theorem concatRows_zero (L : ℕ → List α) : concatRows 0 L = [] := rfl
theorem concatRows_succ (n : ℕ) (L : ℕ → List α) : concatRows (n + 1) L = concatRows n L ++ L n := by
  simp [concatRows, List.range_succ]

theorem concatRows_prefix {n m : ℕ} (h : n ≤ m) (L : ℕ → List α) :
    concatRows n L <+: concatRows m L := by
  induction m with
  | zero => rw [show n = 0 by omega]
  | succ m ih =>
    rcases Nat.lt_or_ge n (m + 1) with h' | h'
    · rw [concatRows_succ]
      exact (ih (by omega)).trans (List.prefix_append _ _)
    · rw [show n = m + 1 by omega]

theorem concatRows_mem {n : ℕ} {L : ℕ → List α} {e : α} :
    e ∈ concatRows n L ↔ ∃ i, i < n ∧ e ∈ L i := by simp [concatRows]

/-- the next element of row `i` extends the prefix -/
theorem concatRows_take_prefix {n i k : ℕ} (hi : i < n) (L : ℕ → List α) (hk : k < (L i).length) :
    (concatRows i L ++ (L i).take k) ++ [(L i)[k]] <+: concatRows n L := by
  have : concatRows i L ++ (L i).take k ++ [(L i)[k]] = concatRows i L ++ (L i).take (k + 1) := by
    rw [List.append_assoc]
    congr 1
    exact List.take_append_getElem hk
  rw [this]
  refine List.IsPrefix.trans ?_ (concatRows_prefix (n := i + 1) hi L)
  rw [concatRows_succ]
  exact (List.prefix_append_right_inj _).2 (List.take_prefix _ _)

theorem concatRows_length (n : ℕ) (L : ℕ → List α) :
    (concatRows n L).length = ∑ i ∈ range n, (L i).length := by
  induction n with
  | zero => rfl
  | succ n ih => rw [concatRows_succ, List.length_append, ih, sum_range_succ]

theorem concatRows_take_snoc {i k : ℕ} (L : ℕ → List α) (hk : k < (L i).length) :
    concatRows i L ++ (L i).take (k + 1) = (concatRows i L ++ (L i).take k) ++ [(L i)[k]] := by
  rw [List.append_assoc]
  congr 1
  exact (List.take_append_getElem hk).symm

theorem concatRows_take_full (i : ℕ) (L : ℕ → List α) {k : ℕ} (hk : (L i).length ≤ k) :
    concatRows i L ++ (L i).take k = concatRows (i + 1) L := by
  rw [concatRows_succ, List.take_of_length_le hk]
end rows

end Lis
