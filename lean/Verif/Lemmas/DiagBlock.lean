import Verif.Model.DiagBlock
import Verif.Base.Sum
import Mathlib.Algebra.BigOperators.Intervals

namespace Lis
open Finset
variable {R : Type}

theorem Ok_cpy {m : ℕ} {x : Arr R} {p q : ℕ} {y : Arr R} (hx : p + m ≤ x.size) (hy : q + m ≤ y.size) :
    Ok (cpy m x p q y) fun y' => y'.size = y.size ∧ (∀ i, i < m → y'.get (q + i) = x.get (p + i)) ∧
      ∀ k, (k < q ∨ q + m ≤ k) → y'.get k = y.get k := by
  unfold cpy
  refine Ok_loop_le (fun i y' => y'.size = y.size ∧ (∀ k, k < i → y'.get (q + k) = x.get (p + k)) ∧
    ∀ k, (k < q ∨ q + m ≤ k) → y'.get k = y.get k) (Nat.zero_le _) ⟨rfl, fun k h => absurd h (by omega), fun _ _ => rfl⟩
    ?_ fun _ h => h
  rintro i y' - hi ⟨h1, h2, h3⟩
  rw [Ok_bind, Ok_rd, Ok_wr]
  refine ⟨by omega, by omega, h1, fun k hk => ?_, fun k hk => ?_⟩
  · rcases Nat.lt_succ_iff_lt_or_eq.mp hk with hk | rfl
    · rw [Arr.set_get_ne _ _ (by omega), h2 k hk]
    · rw [Arr.set_get_self]
  · rw [Arr.set_get_ne _ _ (by omega), h3 k hk]

/-- what the filling pass has done to one of the two triangles while reading the blocks `lo … hi-1` -/
structure RowPush [AddCommMonoid R] (A : Bsr R) (bs : ℕ) (P : ℕ → Prop) [DecidablePred P] (lo hi : ℕ) (s s' : BlkSt R) :
    Prop where
  pos : s'.1 = s.1 + ((Ico lo hi).filter fun bc => P (A.bindex.get bc)).card
  isz : s'.2.1.size = s.2.1.size
  vsz : s'.2.2.size = s.2.2.size
  keepI : ∀ k, k < s.1 → s'.2.1.get k = s.2.1.get k
  keepV : ∀ p, p < bs * s.1 → s'.2.2.get p = s.2.2.get p
  col : ∀ k, s.1 ≤ k → k < s'.1 → P (s'.2.1.get k) ∧ s'.2.1.get k < A.nc
  sum : ∀ J q, q < bs → (∑ k ∈ Ico s.1 s'.1, if s'.2.1.get k = J then s'.2.2.get (bs * k + q) else 0) =
    ∑ bc ∈ Ico lo hi, if P (A.bindex.get bc) ∧ A.bindex.get bc = J then A.value.get (bs * bc + q) else 0

section
variable [AddCommMonoid R] {A : Bsr R} {bs : ℕ} {P : ℕ → Prop} [DecidablePred P]

theorem RowPush.refl (lo : ℕ) (s : BlkSt R) : RowPush A bs P lo lo s s :=
  ⟨by simp, rfl, rfl, fun _ _ => rfl, fun _ _ => rfl, fun k h h' => by omega, fun J q _ => by simp⟩

theorem filter_succ {lo j : ℕ} (h : lo ≤ j) (Q : ℕ → Prop) [DecidablePred Q] :
    ((Ico lo (j + 1)).filter Q).card = ((Ico lo j).filter Q).card + if Q j then 1 else 0 := by
  rw [card_filter, sum_Ico_succ_top h, ← card_filter]

theorem RowPush.skip {lo j : ℕ} {s s' : BlkSt R} (h : RowPush A bs P lo j s s') (hj : lo ≤ j)
    (hp : ¬ P (A.bindex.get j)) : RowPush A bs P lo (j + 1) s s' := by
  refine ⟨?_, h.isz, h.vsz, h.keepI, h.keepV, h.col, fun J q hq => ?_⟩
  · rw [filter_succ hj, if_neg hp, h.pos]; rfl
  · rw [sum_Ico_succ_top hj, if_neg (fun hh => hp hh.1), add_zero, h.sum J q hq]

theorem RowPush.push {lo j : ℕ} {s s' : BlkSt R} (h : RowPush A bs P lo j s s') (hj : lo ≤ j)
    (hp : P (A.bindex.get j)) (hc : A.bindex.get j < A.nc) (hi : s'.1 < s.2.1.size) (hv : bs * (s'.1 + 1) ≤ s.2.2.size)
    (hs : bs * (j + 1) ≤ A.value.size) :
    Ok (pushBlk bs (A.bindex.get j) A.value j s') (RowPush A bs P lo (j + 1) s) := by
  unfold pushBlk
  rw [Nat.mul_add, Nat.mul_one] at hv hs
  rw [Ok_bind, Ok_wr]
  refine ⟨by rw [h.isz]; exact hi, ?_⟩
  rw [Ok_bind]
  refine (Ok_cpy (by omega) (by rw [h.vsz]; omega)).mono ?_
  rintro vl ⟨v1, v2, v3⟩
  rw [Ok_pure]
  have hle : s.1 ≤ s'.1 := by have := h.pos; omega
  have hk : ∀ k, k < s'.1 → bs * (k + 1) ≤ bs * s'.1 := fun k hk => Nat.mul_le_mul_left _ hk
  refine ⟨?_, h.isz, by rw [v1, h.vsz], fun k hk => ?_, fun p hp => ?_, fun k k1 k2 => ?_, fun J q hq => ?_⟩
  · simp only
    rw [filter_succ hj, if_pos hp, h.pos]; omega
  · simp only
    rw [Arr.set_get_ne _ _ (by omega), h.keepI k hk]
  · simp only
    have := Nat.mul_le_mul_left bs hle
    rw [v3 p (by omega), h.keepV p hp]
  · simp only at k2 ⊢
    rcases Nat.lt_succ_iff_lt_or_eq.mp k2 with k2 | rfl
    · rw [Arr.set_get_ne _ _ (by omega)]; exact h.col k k1 k2
    · rw [Arr.set_get_self]; exact ⟨hp, hc⟩
  · simp only
    rw [sum_Ico_succ_top hle, sum_Ico_succ_top hj, ← h.sum J q hq]
    congr 1
    · refine sum_congr rfl fun k hk' => ?_
      rw [mem_Ico] at hk'
      have := hk k hk'.2
      rw [Nat.mul_add, Nat.mul_one] at this
      rw [Arr.set_get_ne _ _ (by omega), v3 _ (by omega)]
    · rw [Arr.set_get_self, v2 q hq]
      simp only [hp, true_and]

end

/-- number of blocks of block row `r` satisfying `P r` -/
def rowCnt (A : Bsr R) (P : ℕ → ℕ → Prop) [∀ r, DecidablePred (P r)] (r : ℕ) : ℕ :=
  ((Ico (A.bptr.get r) (A.bptr.get (r + 1))).filter fun bc => P r (A.bindex.get bc)).card

abbrev belowD (r c : ℕ) : Prop := c < r
abbrev aboveD (r c : ℕ) : Prop := c > r

theorem splitCountBsr_spec {A : Bsr R} (h : A.WF) :
    Ok (splitCountBsr A) fun s => s.1 = ∑ r ∈ range A.nr, rowCnt A belowD r ∧ s.2 = ∑ r ∈ range A.nr, rowCnt A aboveD r := by
  have hps := h.bptr.size
  have his := h.isz
  unfold splitCountBsr
  refine Ok_loop_le (fun i (s : ℕ × ℕ) => s.1 = ∑ r ∈ range i, rowCnt A belowD r ∧
    s.2 = ∑ r ∈ range i, rowCnt A aboveD r) (Nat.zero_le _) (by simp) ?_ fun _ h => h
  rintro i s - hi ⟨h1, h2⟩
  have hm := h.bptr.mono i hi
  simp only [Ok_bind, Ok_rd]
  refine ⟨by omega, by omega, ?_⟩
  refine Ok_loop_le (fun j (t : ℕ × ℕ) =>
    t.1 = s.1 + ((Ico (A.bptr.get i) j).filter fun bc => belowD i (A.bindex.get bc)).card ∧
    t.2 = s.2 + ((Ico (A.bptr.get i) j).filter fun bc => aboveD i (A.bindex.get bc)).card) hm (by simp) ?_ ?_
  · rintro j t j1 j2 ⟨t1, t2⟩
    have := h.bptr.lt_nnz hi j2
    rw [filter_succ j1, filter_succ j1]
    simp only [Ok_bind, Ok_rd, Ok_pure]
    refine ⟨by omega, ?_⟩
    split_ifs <;> first | omega | (refine ⟨?_, ?_⟩ <;> simp only <;> omega)
  · rintro t ⟨t1, t2⟩
    rw [sum_range_succ, sum_range_succ, t1, t2, h1, h2]
    exact ⟨rfl, rfl⟩

/-- the diagonal block copied last among `lo … j-1` -/
structure DiagSeen (A : Bsr R) (bs i lo j : ℕ) (D D' : Arr R) : Prop where
  size : D'.size = D.size
  out : ∀ p, (p < bs * i ∨ bs * (i + 1) ≤ p) → D'.get p = D.get p
  none : (∀ bc, lo ≤ bc → bc < j → A.bindex.get bc ≠ i) → ∀ q, q < bs → D'.get (bs * i + q) = D.get (bs * i + q)
  last : ∀ b0, lo ≤ b0 → b0 < j → A.bindex.get b0 = i → (∀ bc, b0 < bc → bc < j → A.bindex.get bc ≠ i) →
    ∀ q, q < bs → D'.get (bs * i + q) = A.value.get (bs * b0 + q)

theorem splitRowBsr_spec [AddCommMonoid R] {A : Bsr R} (h : A.WF) {i : ℕ} (hi : i < A.nr) {s : BlkSt R × BlkSt R × Arr R}
    {nl nu : ℕ} (hnl : s.1.1 + rowCnt A belowD i ≤ nl) (hnu : s.2.1.1 + rowCnt A aboveD i ≤ nu)
    (hl1 : nl ≤ s.1.2.1.size) (hl2 : A.bnr * A.bnc * nl ≤ s.1.2.2.size)
    (hu1 : nu ≤ s.2.1.2.1.size) (hu2 : A.bnr * A.bnc * nu ≤ s.2.1.2.2.size)
    (hd : A.bnr * A.bnc * A.nr ≤ s.2.2.size) :
    Ok (splitRowBsr A i s) fun s' =>
      RowPush A (A.bnr * A.bnc) (belowD i) (A.bptr.get i) (A.bptr.get (i + 1)) s.1 s'.1 ∧
      RowPush A (A.bnr * A.bnc) (aboveD i) (A.bptr.get i) (A.bptr.get (i + 1)) s.2.1 s'.2.1 ∧
      DiagSeen A (A.bnr * A.bnc) i (A.bptr.get i) (A.bptr.get (i + 1)) s.2.2 s'.2.2 := by
  have hps := h.bptr.size
  have his := h.isz
  have hvs := h.vsz
  have hm := h.bptr.mono i hi
  unfold splitRowBsr
  obtain ⟨bs, hbs⟩ : ∃ bs, bs = A.bnr * A.bnc := ⟨_, rfl⟩
  rw [← hbs] at hl2 hu2 hd hvs ⊢
  simp only [Ok_bind, Ok_rd]
  refine ⟨by omega, by omega, ?_⟩
  refine Ok_loop_le (fun j (s' : BlkSt R × BlkSt R × Arr R) =>
      RowPush A bs (belowD i) (A.bptr.get i) j s.1 s'.1 ∧
      RowPush A bs (aboveD i) (A.bptr.get i) j s.2.1 s'.2.1 ∧
      DiagSeen A bs i (A.bptr.get i) j s.2.2 s'.2.2) hm ?_ ?_ fun _ h => h
  · exact ⟨.refl _ _, .refl _ _, rfl, fun _ _ => rfl, fun _ _ _ => rfl, fun b0 h1 h2 => by omega⟩
  · rintro j s' j1 j2 ⟨h1, h2, h3⟩
    have hn := h.bptr.lt_nnz hi j2
    have hjs : bs * (j + 1) ≤ A.value.size := by
      have := Nat.mul_le_mul_left bs (show j + 1 ≤ A.bnnz from hn)
      rw [Nat.mul_comm] at hvs
      omega
    have hcol := h.idx j hn
    have hcnt : ∀ (P : ℕ → ℕ → Prop) [∀ r, DecidablePred (P r)], P i (A.bindex.get j) →
        ((Ico (A.bptr.get i) j).filter fun bc => P i (A.bindex.get bc)).card + 1 ≤ rowCnt A P i := by
      intro P _ hP
      have e := filter_succ j1 fun bc => P i (A.bindex.get bc)
      rw [if_pos hP] at e
      rw [← e]
      unfold rowCnt
      refine card_le_card (filter_subset_filter _ fun x hx => ?_)
      rw [mem_Ico] at hx ⊢
      omega
    have keepD : A.bindex.get j ≠ i → DiagSeen A bs i (A.bptr.get i) (j + 1) s.2.2 s'.2.2 := by
      intro hne
      refine ⟨h3.size, h3.out, fun ha => h3.none fun bc b1 b2 => ha bc b1 (by omega), fun b0 b1 b2 b3 b4 => ?_⟩
      have : b0 ≠ j := fun hh => hne (hh ▸ b3)
      exact h3.last b0 b1 (by omega) b3 fun bc c1 c2 => b4 bc c1 (by omega)
    rw [Ok_bind, Ok_rd]
    refine ⟨by omega, ?_⟩
    by_cases hlt : A.bindex.get j < i
    · rw [if_pos hlt]
      have hq := hcnt belowD hlt
      have hp := h1.pos
      have := Nat.mul_le_mul_left bs (show s'.1.1 + 1 ≤ nl by omega)
      rw [Ok_bind]
      refine (h1.push j1 hlt hcol (by omega) (by omega) hjs).mono fun l hl => ?_
      rw [Ok_pure]
      exact ⟨hl, h2.skip j1 (by unfold aboveD; omega), keepD (by omega)⟩
    · rw [if_neg hlt]
      by_cases hgt : A.bindex.get j > i
      · rw [if_pos hgt]
        have hq := hcnt aboveD hgt
        have hp := h2.pos
        have := Nat.mul_le_mul_left bs (show s'.2.1.1 + 1 ≤ nu by omega)
        rw [Ok_bind]
        refine (h2.push j1 hgt hcol (by omega) (by omega) hjs).mono fun l hl => ?_
        rw [Ok_pure]
        exact ⟨h1.skip j1 hlt, hl, keepD (by omega)⟩
      · rw [if_neg hgt]
        have hij : A.bindex.get j = i := by omega
        have hb := Nat.mul_le_mul_left bs (show i + 1 ≤ A.nr from hi)
        rw [Nat.mul_add, Nat.mul_one] at hb hjs
        rw [Ok_bind]
        refine (Ok_cpy (by omega) (by rw [h3.size]; omega)).mono ?_
        rintro D ⟨d1, d2, d3⟩
        rw [Ok_pure]
        refine ⟨h1.skip j1 hlt, h2.skip j1 hgt, by rw [d1, h3.size], fun p hp => ?_,
          fun ha => absurd hij (ha j j1 (by omega)), fun b0 b1 b2 b3 b4 q hq => ?_⟩
        · rw [Nat.mul_add, Nat.mul_one] at hp
          simp only
          rw [d3 p hp, h3.out p (by rw [Nat.mul_add, Nat.mul_one]; exact hp)]
        · have : b0 = j := by
            by_contra hne
            exact b4 j (by omega) (by omega) hij
          subst this
          exact d2 q hq

/-- what the filling pass has done to one triangle after the block rows `0 … i-1` -/
structure AllPush [AddCommMonoid R] (A : Bsr R) (bs N : ℕ) (P : ℕ → ℕ → Prop) [∀ r, DecidablePred (P r)] (i : ℕ)
    (ptr : Arr ℕ) (s : BlkSt R) : Prop where
  psz : ptr.size = A.nr + 1
  at_ : ∀ r, r ≤ i → ptr.get r = ∑ r' ∈ range r, rowCnt A P r'
  pos : s.1 = ∑ r' ∈ range i, rowCnt A P r'
  isz : s.2.1.size = N
  vsz : s.2.2.size = N * bs
  col : ∀ r, r < i → ∀ k, ptr.get r ≤ k → k < ptr.get (r + 1) → P r (s.2.1.get k) ∧ s.2.1.get k < A.nc
  sum : ∀ r, r < i → ∀ J q, q < bs →
    (∑ k ∈ Ico (ptr.get r) (ptr.get (r + 1)), if s.2.1.get k = J then s.2.2.get (bs * k + q) else 0) =
    ∑ bc ∈ Ico (A.bptr.get r) (A.bptr.get (r + 1)),
      if P r (A.bindex.get bc) ∧ A.bindex.get bc = J then A.value.get (bs * bc + q) else 0

theorem AllPush.step [AddCommMonoid R] {A : Bsr R} {bs N : ℕ} {P : ℕ → ℕ → Prop} [∀ r, DecidablePred (P r)] {i : ℕ}
    {ptr : Arr ℕ} {s s' : BlkSt R} (h : AllPush A bs N P i ptr s) (hi : i < A.nr)
    (hr : RowPush A bs (P i) (A.bptr.get i) (A.bptr.get (i + 1)) s s') :
    AllPush A bs N P (i + 1) (ptr.set (i + 1) s'.1) s' := by
  have hpos : s'.1 = ∑ r' ∈ range (i + 1), rowCnt A P r' := by
    rw [sum_range_succ, ← h.pos, hr.pos]; rfl
  have hmono : ∀ r, r ≤ i → (∑ r' ∈ range r, rowCnt A P r') ≤ ∑ r' ∈ range i, rowCnt A P r' := fun r hr =>
    sum_le_sum_of_subset (range_subset_range.2 hr)
  refine ⟨h.psz, fun r hr' => ?_, hpos, by rw [hr.isz, h.isz], by rw [hr.vsz, h.vsz], fun r hr' k => ?_,
    fun r hr' J q hq => ?_⟩
  · rw [Arr.set_get]; split
    · next e => rw [e, hpos]
    · exact h.at_ r (by omega)
  · rw [Arr.set_get_ne _ _ (show r ≠ i + 1 by omega)]
    by_cases e : r = i
    · subst e
      rw [Arr.set_get_self, h.at_ r le_rfl, ← h.pos]
      exact hr.col k
    · rw [Arr.set_get_ne _ _ (show r + 1 ≠ i + 1 by omega)]
      intro k1 k2
      have := hmono (r + 1) (by omega)
      rw [← h.at_ (r + 1) (by omega), ← h.pos] at this
      rw [hr.keepI k (by omega)]
      exact h.col r (by omega) k k1 k2
  · rw [Arr.set_get_ne _ _ (show r ≠ i + 1 by omega)]
    by_cases e : r = i
    · subst e
      rw [Arr.set_get_self, h.at_ r le_rfl, ← h.pos]
      exact hr.sum J q hq
    · rw [Arr.set_get_ne _ _ (show r + 1 ≠ i + 1 by omega), ← h.sum r (by omega) J q hq]
      refine sum_congr rfl fun k hk => ?_
      rw [mem_Ico] at hk
      have := hmono (r + 1) (by omega)
      rw [← h.at_ (r + 1) (by omega), ← h.pos] at this
      have h2 := Nat.mul_le_mul_left bs (show k + 1 ≤ s.1 by omega)
      rw [Nat.mul_add, Nat.mul_one] at h2
      rw [hr.keepI k (by omega), hr.keepV _ (by omega)]

theorem AllPush.wf [AddCommMonoid R] {A : Bsr R} {P : ℕ → ℕ → Prop} [∀ r, DecidablePred (P r)] (hA : A.WF)
    {ptr : Arr ℕ} {s : BlkSt R}
    (h : AllPush A (A.bnr * A.bnc) (∑ r ∈ range A.nr, rowCnt A P r) P A.nr ptr s) :
    Bsr.WF ⟨A.n, A.nr, A.nc, A.bnr, A.bnc, s.1, ptr, s.2.1, s.2.2⟩ := by
  have hp : PtrWF A.nr s.1 ptr := by
    refine ⟨by rw [h.psz], by rw [h.at_ 0 (by omega)]; rfl, fun i hi => ?_, by rw [h.at_ _ le_rfl, h.pos]⟩
    rw [h.at_ i (by omega), h.at_ (i + 1) hi, sum_range_succ]
    exact Nat.le_add_right _ _
  refine ⟨hp, hA.hbr, hA.hbc, hA.hn, by rw [h.isz]; exact h.pos.le, by rw [h.vsz, h.pos], fun k hk => ?_⟩
  have key : ∀ t, t ≤ A.nr → k < ptr.get t → s.2.1.get k < A.nc := by
    intro t
    induction t with
    | zero => intro _ h0; rw [hp.zero] at h0; omega
    | succ t ih =>
      intro ht hk
      by_cases hlt : k < ptr.get t
      · exact ih (by omega) hlt
      · exact (h.col t ht k (by omega) hk).2
  exact key A.nr le_rfl (by rw [hp.last]; exact hk)

theorem AllPush.entry [AddCommMonoid R] {A : Bsr R} {P : ℕ → ℕ → Prop} [∀ r, DecidablePred (P r)] (hA : A.WF)
    {ptr : Arr ℕ} {s : BlkSt R} {N : ℕ}
    (h : AllPush A (A.bnr * A.bnc) N P A.nr ptr s) {i j : ℕ} (hi : i < A.nr * A.bnr) :
    Bsr.entry ⟨A.n, A.nr, A.nc, A.bnr, A.bnc, s.1, ptr, s.2.1, s.2.2⟩ i j =
      if P (i / A.bnr) (j / A.bnc) then A.entry i j else 0 := by
  have hr : i / A.bnr < A.nr := Nat.div_lt_of_lt_mul (by rw [Nat.mul_comm]; exact hi)
  have hq : j % A.bnc * A.bnr + i % A.bnr < A.bnr * A.bnc := by
    have h1 := Nat.mod_lt j hA.hbc
    have h2 := Nat.mod_lt i hA.hbr
    have h3 := Nat.mul_le_mul_right A.bnr (show j % A.bnc + 1 ≤ A.bnc from h1)
    rw [Nat.add_mul, Nat.one_mul] at h3
    rw [Nat.mul_comm A.bnr]
    omega
  have := h.sum (i / A.bnr) hr (j / A.bnc) (j % A.bnc * A.bnr + i % A.bnr) hq
  unfold Bsr.entry
  simp only
  have e : ∀ bc, bc * (A.bnr * A.bnc) + j % A.bnc * A.bnr + i % A.bnr =
      A.bnr * A.bnc * bc + (j % A.bnc * A.bnr + i % A.bnr) := fun bc => by
    rw [Nat.mul_comm bc, Nat.add_assoc]
  simp only [e]
  rw [this]
  split
  · next hP =>
    refine sum_congr rfl fun bc _ => ?_
    by_cases hb : A.bindex.get bc = j / A.bnc
    · rw [if_pos ⟨hb ▸ hP, hb⟩, if_pos hb]
    · rw [if_neg fun hh => hb hh.2, if_neg hb]
  · next hP =>
    refine sum_eq_zero fun bc _ => if_neg ?_
    rintro ⟨h1, h2⟩
    exact hP (h2 ▸ h1)

/-- everything `lis_matrix_split_bsr` establishes -/
theorem splitBsr_parts [AddCommMonoid R] (junk : ℕ → ℕ → ℕ) (vjunk : ℕ → ℕ → R) (djunk : ℕ → R) {A : Bsr R} (h : A.WF)
    (hsq : A.bnr = A.bnc) (hnc : A.nc = A.nr) :
    Ok (splitBsr junk vjunk djunk A) fun S => S.WF ∧ S.n = A.n ∧ S.nr = A.nr ∧ S.b = A.bnr ∧
      S.D.size = A.nr * (A.bnr * A.bnc) ∧
      (∀ i j, i < A.nr * A.bnr → S.L.entry i j = if j / A.bnr < i / A.bnr then A.entry i j else 0) ∧
      (∀ i j, i < A.nr * A.bnr → S.U.entry i j = if i / A.bnr < j / A.bnr then A.entry i j else 0) ∧
      (∀ I, I < A.nr → (∀ bc, A.bptr.get I ≤ bc → bc < A.bptr.get (I + 1) → A.bindex.get bc ≠ I) →
        ∀ q, q < A.bnr * A.bnc → S.D.get (A.bnr * A.bnc * I + q) = djunk (A.bnr * A.bnc * I + q)) ∧
      (∀ I, I < A.nr → ∀ b0, A.bptr.get I ≤ b0 → b0 < A.bptr.get (I + 1) → A.bindex.get b0 = I →
        (∀ bc, b0 < bc → bc < A.bptr.get (I + 1) → A.bindex.get bc ≠ I) →
        ∀ q, q < A.bnr * A.bnc → S.D.get (A.bnr * A.bnc * I + q) = A.value.get (A.bnr * A.bnc * b0 + q)) := by
  unfold splitBsr
  obtain ⟨bs, hbs⟩ : ∃ bs, bs = A.bnr * A.bnc := ⟨_, rfl⟩
  simp only [← hbs]
  rw [Ok_bind]
  refine (splitCountBsr_spec h).mono ?_
  rintro ⟨nl, nu⟩ ⟨hnl, hnu⟩
  simp only at hnl hnu ⊢
  simp only [Ok_bind, Ok_wr]
  refine ⟨by simp, by simp, ?_⟩
  have hle : ∀ (P : ℕ → ℕ → Prop) [∀ r, DecidablePred (P r)] i, i ≤ A.nr →
      (∑ r' ∈ range i, rowCnt A P r') ≤ ∑ r' ∈ range A.nr, rowCnt A P r' := fun P _ r hr =>
    sum_le_sum_of_subset (range_subset_range.2 hr)
  refine Ok_loop_le (fun i (p : (Arr ℕ × Arr ℕ) × (BlkSt R × BlkSt R × Arr R)) =>
    AllPush A bs nl belowD i p.1.1 p.2.1 ∧ AllPush A bs nu aboveD i p.1.2 p.2.2.1 ∧ p.2.2.2.size = A.nr * bs ∧
    (∀ q, bs * i ≤ q → p.2.2.2.get q = djunk q) ∧
    (∀ I, I < i → (∀ bc, A.bptr.get I ≤ bc → bc < A.bptr.get (I + 1) → A.bindex.get bc ≠ I) →
        ∀ q, q < bs → p.2.2.2.get (bs * I + q) = djunk (bs * I + q)) ∧
    (∀ I, I < i → ∀ b0, A.bptr.get I ≤ b0 → b0 < A.bptr.get (I + 1) → A.bindex.get b0 = I →
        (∀ bc, b0 < bc → bc < A.bptr.get (I + 1) → A.bindex.get bc ≠ I) →
        ∀ q, q < bs → p.2.2.2.get (bs * I + q) = A.value.get (bs * b0 + q))) (Nat.zero_le _) ?_ ?_ ?_
  · have h0 : ∀ (P : ℕ → ℕ → Prop) [∀ r, DecidablePred (P r)] N (u : ℕ → ℕ) (v : ℕ → ℕ) (w : ℕ → R),
        AllPush A bs N P 0 ((Arr.malloc (A.nr + 1) u).set 0 0) (0, .malloc N v, .malloc (N * bs) w) := by
      intro P _ N u v w
      refine ⟨rfl, fun r hr => ?_, rfl, rfl, rfl, fun r hr => by omega, fun r hr => by omega⟩
      obtain rfl : r = 0 := by omega
      rw [Arr.set_get_self]; rfl
    exact ⟨h0 belowD _ _ _ _, h0 aboveD _ _ _ _, rfl, fun _ _ => rfl, fun I hI => by omega, fun I hI => by omega⟩
  · rintro i ⟨⟨lp, up⟩, s⟩ - hi ⟨a1, a2, a3, a4, a5, a6⟩
    simp only at a1 a2 a3 a4 a5 a6
    have hl := hle belowD (i + 1) hi
    have hu := hle aboveD (i + 1) hi
    rw [sum_range_succ, ← a1.pos, ← hnl] at hl
    rw [sum_range_succ, ← a2.pos, ← hnu] at hu
    rw [Ok_bind]
    refine (splitRowBsr_spec h hi hl hu a1.isz.ge (by rw [a1.vsz, hbs, Nat.mul_comm]) a2.isz.ge
      (by rw [a2.vsz, hbs, Nat.mul_comm]) (by rw [a3, hbs, Nat.mul_comm])).mono ?_
    rw [← hbs]
    rintro s' ⟨b1, b2, b3⟩
    have hp1 := a1.psz
    have hp2 := a2.psz
    simp only [Ok_bind, Ok_wr]
    refine ⟨by omega, by omega, ?_⟩
    rw [Ok_pure]
    refine ⟨a1.step hi b1, a2.step hi b2, by rw [b3.size, a3], fun q hq => ?_, fun I hI hno q hq => ?_,
      fun I hI b0 c1 c2 c3 c4 q hq => ?_⟩
    · have := Nat.mul_le_mul_left bs (show i ≤ i + 1 by omega)
      rw [b3.out q (Or.inr hq), a4 q (by omega)]
    · rcases Nat.lt_succ_iff_lt_or_eq.mp hI with hI | rfl
      · have := Nat.mul_le_mul_left bs (show I + 1 ≤ i from hI)
        rw [Nat.mul_add, Nat.mul_one] at this
        rw [b3.out _ (Or.inl (by omega))]
        exact a5 I hI hno q hq
      · simp only
        rw [b3.none hno q hq, a4 _ (by omega)]
    · rcases Nat.lt_succ_iff_lt_or_eq.mp hI with hI | rfl
      · have := Nat.mul_le_mul_left bs (show I + 1 ≤ i from hI)
        rw [Nat.mul_add, Nat.mul_one] at this
        rw [b3.out _ (Or.inl (by omega))]
        exact a6 I hI b0 c1 c2 c3 c4 q hq
      · exact b3.last b0 c1 c2 c3 c4 q hq
  · rintro ⟨⟨lp, up⟩, s⟩ ⟨a1, a2, a3, a4, a5, a6⟩
    simp only at a1 a2 a3 a4 a5 a6
    subst hbs hnl hnu
    rw [Ok_pure]
    refine ⟨⟨h.hbr, h.hn, ?_, ⟨rfl, rfl, hnc, rfl, hsq.symm⟩, ⟨rfl, rfl, hnc, rfl, hsq.symm⟩, a1.wf h, a2.wf h⟩, rfl, rfl,
      rfl, a3, fun i j hi => ?_, fun i j hi => ?_, a5, a6⟩
    · simp only
      rw [a3, ← hsq]
    · rw [a1.entry h hi, ← hsq]
    · rw [a2.entry h hi, ← hsq]

end Lis
