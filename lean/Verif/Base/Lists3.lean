import Verif.Base.Lists2

/-! Loops that emit elements one after the other. -/

namespace Lis
open Finset

section emits
variable {β : Type}

/-- `em lo ++ em (lo+1) ++ … ++ em (hi-1)` -/
def emits (lo hi : ℕ) (em : ℕ → List β) : List β := (List.range' lo (hi - lo)).flatMap em

theorem emits_self (lo : ℕ) (em : ℕ → List β) : emits lo lo em = [] := by simp [emits]

theorem emits_succ {lo hi : ℕ} (h : lo ≤ hi) (em : ℕ → List β) :
    emits lo (hi + 1) em = emits lo hi em ++ em hi := by
  unfold emits
  rw [show hi + 1 - lo = hi - lo + 1 by omega, List.range'_concat, List.flatMap_append]
  simp [show lo + (hi - lo) = hi by omega]

theorem emits_zero (n : ℕ) (em : ℕ → List β) : emits 0 n em = concatRows n em := by
  simp [emits, concatRows, List.range_eq_range']

theorem emits_prefix {lo a b : ℕ} (h : a ≤ b) (hl : lo ≤ a) (em : ℕ → List β) : emits lo a em <+: emits lo b em := by
  induction b with
  | zero => rw [show a = 0 by omega]
  | succ b ih =>
    rcases Nat.lt_or_ge a (b + 1) with h' | h'
    · rw [emits_succ (by omega)]
      exact (ih (by omega)).trans (List.prefix_append _ _)
    · rw [show a = b + 1 by omega]

theorem emits_sum {R : Type*} [AddCommMonoid R] (lo hi : ℕ) (em : ℕ → List β) (f : β → R) :
    ((emits lo hi em).map f).sum = ∑ j ∈ Ico lo hi, ((em j).map f).sum := by
  rcases Nat.lt_or_ge hi lo with h | h
  · rw [Ico_eq_empty (by omega)]; simp [emits, show hi - lo = 0 by omega]
  · induction hi, h using Nat.le_induction with
    | base => simp [emits_self]
    | succ n hn ih => rw [emits_succ hn, List.map_append, List.sum_append, ih, sum_Ico_succ_top hn]

theorem emits_length (lo hi : ℕ) (em : ℕ → List β) :
    (emits lo hi em).length = ∑ j ∈ Ico lo hi, (em j).length := by
  rcases Nat.lt_or_ge hi lo with h | h
  · rw [Ico_eq_empty (by omega)]; simp [emits, show hi - lo = 0 by omega]
  · induction hi, h using Nat.le_induction with
    | base => simp [emits_self]
    | succ n hn ih => rw [emits_succ hn, List.length_append, ih, sum_Ico_succ_top hn]

theorem emits_mem {lo hi : ℕ} {em : ℕ → List β} {e : β} :
    e ∈ emits lo hi em ↔ ∃ j, lo ≤ j ∧ j < hi ∧ e ∈ em j := by
  unfold emits
  simp only [List.mem_flatMap, List.mem_range'_1]
  constructor
  · rintro ⟨j, ⟨h1, h2⟩, h3⟩; exact ⟨j, h1, by omega, h3⟩
  · rintro ⟨j, h1, h2, h3⟩; exact ⟨j, ⟨h1, by omega⟩, h3⟩

/-- a loop that appends `em j` in iteration `j` -/
theorem Ok_emit {σ : Type*} {lo hi : ℕ} {em : ℕ → List β} {s : σ} {g : ℕ → σ → Option σ}
    (I : List β → σ → Prop) {E : List β} {Q : σ → Prop} (hle : lo ≤ hi) (h0 : I E s)
    (hs : ∀ j s, lo ≤ j → j < hi → I (E ++ emits lo j em) s → (E ++ emits lo j em) ++ em j <+: E ++ emits lo hi em →
      Ok (g j s) (I ((E ++ emits lo j em) ++ em j)))
    (hq : ∀ s, I (E ++ emits lo hi em) s → Q s) : Ok (loop lo hi s g) Q := by
  refine Ok_loop_le (fun j s => I (E ++ emits lo j em) s) hle (by simpa [emits_self] using h0) ?_ hq
  intro j s h1 h2 h
  have e : E ++ emits lo (j + 1) em = (E ++ emits lo j em) ++ em j := by
    rw [emits_succ h1, List.append_assoc]
  rw [e]
  refine hs j s h1 h2 h ?_
  rw [← e]
  exact (List.prefix_append_right_inj _).2 (emits_prefix h2 (by omega) em)
end emits

section pushed
variable {α β : Type}

/-- two parallel buffers of capacity `cap` hold the elements of `E`, next free position `k` -/
structure Pushed (cap : ℕ) (E : List (α × β)) (s : ℕ × Arr α × Arr β) : Prop where
  pos : s.1 = E.length
  isz : s.2.1.size = cap
  vsz : s.2.2.size = cap
  fil : Filled (fun q => (s.2.1.get q, s.2.2.get q)) E

theorem Pushed.push {cap : ℕ} {E : List (α × β)} {k : ℕ} {ix : Arr α} {vl : Arr β} (h : Pushed cap E (k, ix, vl))
    (e : α × β) (hroom : (E ++ [e]).length ≤ cap) :
    k < ix.size ∧ k < vl.size ∧ Pushed cap (E ++ [e]) (k + 1, ix.set k e.1, vl.set k e.2) := by
  obtain ⟨h1, h2, h3, h4⟩ := h
  simp only at h1 h2 h3 h4
  simp only [List.length_append, List.length_singleton] at hroom
  refine ⟨by omega, by omega, by simp [h1], by simpa, by simpa, h4.snoc fun q => ?_⟩
  simp only [Arr.set_get, h1]
  split <;> rfl

/-- a loop that pushes `em j` in iteration `j` -/
theorem Ok_pushLoop {lo hi cap : ℕ} {em : ℕ → List (α × β)} {E : List (α × β)} {s : ℕ × Arr α × Arr β}
    {g : ℕ → ℕ × Arr α × Arr β → Option (ℕ × Arr α × Arr β)} {Q : ℕ × Arr α × Arr β → Prop} (hle : lo ≤ hi)
    (hP : Pushed cap E s) (hcap : (E ++ emits lo hi em).length ≤ cap)
    (hg : ∀ j k ix vl F, lo ≤ j → j < hi → Pushed cap F (k, ix, vl) → (F ++ em j).length ≤ cap →
      Ok (g j (k, ix, vl)) (Pushed cap (F ++ em j)))
    (hq : ∀ s, Pushed cap (E ++ emits lo hi em) s → Q s) : Ok (loop lo hi s g) Q := by
  refine Ok_emit (em := em) (fun E s => Pushed cap E s) hle hP ?_ hq
  rintro j ⟨k, ix, vl⟩ h1 h2 h3 h4
  exact hg j k ix vl _ h1 h2 h3 (h4.length_le.trans hcap)

/-- push one element or none -/
theorem Pushed.pushIf {cap : ℕ} {F : List (α × β)} {k : ℕ} {ix : Arr α} {vl : Arr β} (c : Prop) [Decidable c]
    {e : α × β} (h : Pushed cap F (k, ix, vl)) (hroom : (F ++ if c then [e] else []).length ≤ cap) :
    (c → k < ix.size ∧ k < vl.size ∧ Pushed cap (F ++ if c then [e] else []) (k + 1, ix.set k e.1, vl.set k e.2)) ∧
    (¬ c → Pushed cap (F ++ if c then [e] else []) (k, ix, vl)) := by
  refine ⟨fun hc => ?_, fun hc => by simpa [hc] using h⟩
  simp only [hc, if_true] at hroom ⊢
  exact h.push e hroom
end pushed

/-- `for i: p[i+1] += p[i]` -/
theorem Ok_accum {n b : ℕ} {p : Arr ℕ} {f : ℕ → Arr ℕ → Option (Arr ℕ)} (r : ℕ → ℕ) {Q : Arr ℕ → Prop}
    (hb : p.get 0 = b) (hr : ∀ i, i < n → p.get (i + 1) = r i)
    (hf : ∀ i (q : Arr ℕ), i < n → q.size = p.size → Ok (f i q) fun q' => q' = q.set (i + 1) (q.get (i + 1) + q.get i))
    (hq : ∀ q : Arr ℕ, q.size = p.size → (∀ i, i ≤ n → q.get i = b + ∑ k ∈ range i, r k) → Q q) :
    Ok (loop 0 n p f) Q := by
  refine Ok_loop_le (fun i (q : Arr ℕ) => q.size = p.size ∧ (∀ k, k ≤ i → q.get k = b + ∑ l ∈ range k, r l) ∧
    ∀ k, i ≤ k → k < n → q.get (k + 1) = r k) (Nat.zero_le _) ⟨rfl, ?_, fun k _ hk => hr k hk⟩ ?_ ?_
  · intro k hk; rw [show k = 0 by omega]; simpa
  · rintro i q _ hi ⟨q1, q2, q3⟩
    refine (hf i q hi q1).mono ?_
    rintro _ rfl
    refine ⟨by simpa, fun k hk => ?_, fun k hk hk' => ?_⟩
    · rw [Arr.set_get]
      split
      · next h => rw [h, sum_range_succ, q2 i le_rfl, q3 i le_rfl hi]; omega
      · exact q2 k (by omega)
    · rw [Arr.set_get_ne _ _ (by omega)]; exact q3 k (by omega) hk'
  · rintro q ⟨q1, q2, _⟩; exact hq q q1 q2

/-- filling rows one after the other from `ptr` positions: state `(index, value)` between rows -/
theorem Ok_fillRows {α R : Type} {n cap : ℕ} {ptr : Arr ℕ} {L : ℕ → List (α × R)} {s : Arr α × Arr R}
    {f : ℕ → Arr α × Arr R → Option (Arr α × Arr R)} {Q : Arr α × Arr R → Prop}
    (h1 : s.1.size = cap) (h2 : s.2.size = cap) (_hcap : (concatRows n L).length ≤ cap)
    (hptr : ∀ i, i ≤ n → ptr.get i = (concatRows i L).length)
    (hf : ∀ i (s : Arr α × Arr R), i < n → Pushed cap (concatRows i L) (ptr.get i, s) →
      Ok (f i s) fun s' => ∃ k, Pushed cap (concatRows (i + 1) L) (k, s'))
    (hq : ∀ s : Arr α × Arr R, Pushed cap (concatRows n L) (ptr.get n, s) → Q s) :
    Ok (loop 0 n s f) Q := by
  refine Ok_loop_le (fun i (s : Arr α × Arr R) => Pushed cap (concatRows i L) (ptr.get i, s)) (Nat.zero_le _)
    ⟨by rw [hptr 0 (by omega)], h1, h2, Filled.nil _⟩ ?_ hq
  intro i s _ hi hs
  refine (hf i s hi hs).mono ?_
  rintro s' ⟨k, hk⟩
  exact ⟨hptr _ hi, hk.isz, hk.vsz, hk.fil⟩

end Lis
