import Verif.Model.Sainv
import Verif.Props.Convert1
import Mathlib.Algebra.BigOperators.Ring.Finset
import Mathlib.Tactic.Ring
import Mathlib.Tactic.Abel

/-! Lemmas for `Props/Sainv`: what the loops of `lis_precon_create_sainv_csr` compute. -/

namespace Lis
open Finset
variable {R : Type}

/-- component `c` of the vector stored in a row -/
def SvRow.coef [AddCommMonoid R] (r : SvRow R) (c : ℕ) : R :=
  ∑ k ∈ range r.nnz, if r.idx.get k = c then r.val.get k else 0

/-- row `j` of a factor: blocks of the recorded size, distinct indices, none above `j` -/
structure SvRow.Good (j : ℕ) (r : SvRow R) : Prop where
  le : r.nnz ≤ r.ma
  isz : r.idx.size = r.ma
  vsz : r.val.size = r.ma
  pos : 1 ≤ r.ma
  idx : ∀ k, k < r.nnz → r.idx.get k ≤ j
  inj : ∀ k l, k < r.nnz → l < r.nnz → r.idx.get k = r.idx.get l → k = l

/-- `t` if the drop test keeps it, otherwise 0 -/
def SvOps.drop [Zero R] (F : SvOps R) (nrm t : R) : R := if F.keep nrm t then t else 0

theorem SvOps.drop_zero [Zero R] (F : SvOps R) (nrm : R) : F.drop nrm 0 = 0 := by
  unfold SvOps.drop; split <;> rfl

/-- sums over a row with weights -/
theorem SvRow.sum_coef [CommRing R] {r : SvRow R} {n : ℕ} (h : ∀ k, k < r.nnz → r.idx.get k < n) (f : ℕ → R) :
    ∑ k ∈ range r.nnz, f (r.idx.get k) * r.val.get k = ∑ c ∈ range n, f c * r.coef c := by
  unfold SvRow.coef
  simp only [mul_sum, mul_ite, mul_zero]
  rw [sum_comm]
  refine sum_congr rfl fun k hk => ?_
  rw [sum_ite_eq, if_pos (mem_range.2 (h k (mem_range.1 hk)))]

theorem SvRow.coef_of_mem [AddCommMonoid R] {r : SvRow R} (hi : ∀ k l, k < r.nnz → l < r.nnz → r.idx.get k = r.idx.get l →
    k = l) {m : ℕ} (hm : m < r.nnz) : r.coef (r.idx.get m) = r.val.get m := by
  unfold SvRow.coef
  rw [sum_eq_single m]
  · simp
  · intro b hb hne
    rw [if_neg]
    intro h
    exact hne (hi b m (mem_range.1 hb) hm h)
  · intro h; exact absurd (mem_range.2 hm) h

theorem SvRow.coef_of_not_mem [AddCommMonoid R] {r : SvRow R} {c : ℕ} (h : ∀ k, k < r.nnz → r.idx.get k ≠ c) :
    r.coef c = 0 :=
  sum_eq_zero fun k hk => if_neg (h k (mem_range.1 hk))

/-- the sum of the dropped multiples of the elements of a row is the dropped multiple of the sum -/
theorem SvRow.sum_drop [CommRing R] (F : SvOps R) (nrm dd : R) {r : SvRow R} (hi : ∀ k l, k < r.nnz → l < r.nnz →
    r.idx.get k = r.idx.get l → k = l) (c : ℕ) :
    (∑ m ∈ range r.nnz, if r.idx.get m = c then F.drop nrm (dd * r.val.get m) else 0) = F.drop nrm (dd * r.coef c) := by
  rcases Classical.em (∃ m, m < r.nnz ∧ r.idx.get m = c) with ⟨m, hm, rfl⟩ | h
  · rw [SvRow.coef_of_mem hi hm, sum_eq_single m]
    · simp
    · intro b hb hne
      rw [if_neg]
      intro h
      exact hne (hi b m (mem_range.1 hb) hm h)
    · intro h; exact absurd (mem_range.2 hm) h
  · have h' : ∀ k, k < r.nnz → r.idx.get k ≠ c := fun k hk hc => h ⟨k, hk, hc⟩
    rw [SvRow.coef_of_not_mem h', mul_zero, SvOps.drop_zero]
    exact sum_eq_zero fun k hk => if_neg (h' k (mem_range.1 hk))

theorem svInitRow_spec [CommRing R] (J : SvJunk R) {annz : ℕ} (ha : 1 ≤ annz) (i : ℕ) :
    Ok (svInitRow J annz i) fun r => r.Good i ∧ ∀ c, r.coef c = if c = i then 1 else 0 := by
  unfold svInitRow
  simp only [Ok_bind, Ok_wr, Ok_pure, Arr.malloc_size]
  refine ⟨ha, ha, ⟨ha, rfl, rfl, ha, ?_, ?_⟩, ?_⟩
  · intro k hk
    obtain rfl : k = 0 := by simp at hk; exact hk
    simp
  · intro k l hk hl _
    simp at hk hl
    omega
  · intro c
    simp [SvRow.coef, eq_comm]

theorem svGrow_spec (J : SvJunk R) {annz j : ℕ} (ha : 1 ≤ annz) {r : SvRow R} (h : r.Good j) :
    Ok (svGrow J annz j r) fun r' => r'.Good j ∧ r'.nnz = r.nnz ∧ r.nnz < r'.ma ∧
      (∀ k, k < r.nnz → r'.idx.get k = r.idx.get k) ∧ ∀ k, k < r.nnz → r'.val.get k = r.val.get k := by
  unfold svGrow
  have hle := h.le
  have h1 := h.isz
  have h2 := h.vsz
  split <;> rename_i hc
  · simp only [Arr.realloc]
    rw [if_pos (by omega), if_pos (by omega)]
    simp only [Option.bind_eq_bind, Option.bind_some, Ok_pure]
    have e1 : ∀ k, k < r.nnz → (if k < r.idx.size then r.idx.get k else J.idx j k) = r.idx.get k := fun k hk => by
      rw [if_pos (by omega)]
    have e2 : ∀ k, k < r.nnz → (if k < r.val.size then r.val.get k else J.val j k) = r.val.get k := fun k hk => by
      rw [if_pos (by omega)]
    refine ⟨⟨Nat.le_trans hle (Nat.le_add_right _ _), rfl, rfl, show 1 ≤ r.ma + annz by omega, ?_, ?_⟩, trivial, by omega, e1, e2⟩
    · intro k hk
      simp only at hk ⊢
      rw [e1 k hk]
      exact h.idx k hk
    · intro k l hk hl he
      simp only at hk hl he
      rw [e1 k hk, e1 l hl] at he
      exact h.inj k l hk hl he
  · rw [Ok_pure]
    exact ⟨h, rfl, by omega, fun _ _ => rfl, fun _ _ => rfl⟩

theorem svPush_spec [AddCommMonoid R] (J : SvJunk R) {annz j c : ℕ} {v : R} (ha : 1 ≤ annz) {r : SvRow R} (h : r.Good j)
    (hc : c ≤ j) (hn : ∀ k, k < r.nnz → r.idx.get k ≠ c) :
    Ok (svPush J annz j c v r) fun r' => r'.Good j ∧ r'.nnz = r.nnz + 1 ∧
      (∀ k, k < r.nnz → r'.idx.get k = r.idx.get k) ∧ r'.idx.get r.nnz = c ∧
      ∀ d, r'.coef d = r.coef d + if c = d then v else 0 := by
  unfold svPush
  simp only [Ok_bind, Ok_wr, Ok_pure]
  refine (svGrow_spec J ha h).mono ?_
  rintro r1 ⟨g, e1, e2, e3, e4⟩
  refine ⟨by rw [g.isz]; omega, by rw [g.vsz]; omega, ⟨?_, ?_, ?_, g.pos, ?_, ?_⟩, by omega, ?_, ?_, ?_⟩
  · show r1.nnz + 1 ≤ r1.ma; omega
  · exact g.isz
  · exact g.vsz
  · intro k hk
    simp only at hk
    simp only [Arr.set_get]
    split
    · exact hc
    · rw [e3 k (by omega)]
      exact h.idx k (by omega)
  · intro k l hk hl he
    simp only at hk hl
    simp only [Arr.set_get] at he
    split at he <;> split at he <;> rename_i h1 h2
    · omega
    · rw [e3 l (by omega)] at he
      exact absurd he.symm (hn l (by omega))
    · rw [e3 k (by omega)] at he
      exact absurd he (hn k (by omega))
    · rw [e3 k (by omega), e3 l (by omega)] at he
      exact h.inj k l (by omega) (by omega) he
  · intro k hk
    simp only [Arr.set_get]
    rw [if_neg (by omega), e3 k hk]
  · simp only [Arr.set_get, e1, if_true]
  · intro d
    unfold SvRow.coef
    simp only
    rw [sum_range_succ, e1]
    congr 1
    · refine sum_congr rfl fun k hk => ?_
      have hk := mem_range.1 hk
      have q1 : (r1.idx.set r.nnz c).get k = r.idx.get k := by rw [Arr.set_get_ne _ _ (by omega), e3 k hk]
      have q2 : (r1.val.set r.nnz v).get k = r.val.get k := by rw [Arr.set_get_ne _ _ (by omega), e4 k hk]
      simp only [q1, q2]
    · simp

/-- marks of a row -/
theorem svMark_spec {r : SvRow R} {j : ℕ} (h : r.Good j) {ww : Arr ℕ} (hw : j < ww.size) :
    Ok (svMark r ww) fun w => w.size = ww.size ∧ (∀ k, k < r.nnz → w.get (r.idx.get k) = k + 1) ∧
      ∀ c, (∀ k, k < r.nnz → r.idx.get k ≠ c) → w.get c = ww.get c := by
  unfold svMark
  have hle := h.le
  refine Ok_loop_le (fun m w => w.size = ww.size ∧ (∀ k, k < m → w.get (r.idx.get k) = k + 1) ∧
      ∀ c, (∀ k, k < m → r.idx.get k ≠ c) → w.get c = ww.get c) (Nat.zero_le _) ⟨rfl, fun k hk => by omega, fun _ _ => rfl⟩
    ?_ fun s hs => hs
  rintro m w - hm ⟨h1, h2, h3⟩
  simp only [Ok_bind, Ok_rd, Ok_wr]
  have := h.idx m hm
  refine ⟨by rw [h.isz]; omega, by omega, by simp [h1], ?_, ?_⟩
  · intro k hk
    rw [Arr.set_get]
    split <;> rename_i he
    · rw [h.inj k m (by omega) hm he]
    · refine h2 k (by rcases Nat.lt_succ_iff_lt_or_eq.1 hk with h | rfl; exact h; exact absurd rfl he)
  · intro c hc
    rw [Arr.set_get, if_neg (fun he => hc m (by omega) he.symm)]
    exact h3 c fun k hk => hc k (by omega)

theorem svUnmark_spec {r : SvRow R} {j : ℕ} (h : r.Good j) {ww : Arr ℕ} (hw : j < ww.size) :
    Ok (svUnmark r ww) fun w => w.size = ww.size ∧ (∀ k, k < r.nnz → w.get (r.idx.get k) = 0) ∧
      ∀ c, (∀ k, k < r.nnz → r.idx.get k ≠ c) → w.get c = ww.get c := by
  unfold svUnmark
  have hle := h.le
  refine Ok_loop_le (fun m w => w.size = ww.size ∧ (∀ k, k < m → w.get (r.idx.get k) = 0) ∧
      ∀ c, (∀ k, k < m → r.idx.get k ≠ c) → w.get c = ww.get c) (Nat.zero_le _) ⟨rfl, fun k hk => by omega, fun _ _ => rfl⟩
    ?_ fun s hs => hs
  rintro m w - hm ⟨h1, h2, h3⟩
  simp only [Ok_bind, Ok_rd, Ok_wr]
  have := h.idx m hm
  refine ⟨by rw [h.isz]; omega, by omega, by simp [h1], ?_, ?_⟩
  · intro k hk
    rw [Arr.set_get]
    split <;> rename_i he
    · rfl
    · refine h2 k (by rcases Nat.lt_succ_iff_lt_or_eq.1 hk with h | rfl; exact h; exact absurd rfl he)
  · intro c hc
    rw [Arr.set_get, if_neg (fun he => hc m (by omega) he.symm)]
    exact h3 c fun k hk => hc k (by omega)

/-- the loop that subtracts row `i` from row `j` -/
theorem svSub1_loop [CommRing R] (F : SvOps R) (J : SvJunk R) {annz i j : ℕ} (ha : 1 ≤ annz) (hij : i < j) (nrm dd : R)
    {ri r0 : SvRow R} (hi : ri.Good i) (h0 : r0.Good j) {ww : Arr ℕ} (hw : j < ww.size)
    (hm : ∀ k, k < r0.nnz → ww.get (r0.idx.get k) = k + 1)
    (hz : ∀ c, c < ww.size → (∀ k, k < r0.nnz → r0.idx.get k ≠ c) → ww.get c = 0) :
    Ok (loop 0 ri.nnz r0 fun ik r => svSub1 F J annz j nrm dd ri ww ik r) fun r => r.Good j ∧ r0.nnz ≤ r.nnz ∧
      (∀ k, k < r0.nnz → r.idx.get k = r0.idx.get k) ∧ ∀ c, r.coef c = r0.coef c - F.drop nrm (dd * ri.coef c) := by
  have hle := hi.le
  refine Ok_loop_le (fun m r => r.Good j ∧ r0.nnz ≤ r.nnz ∧ (∀ k, k < r0.nnz → r.idx.get k = r0.idx.get k) ∧
      (∀ k, r0.nnz ≤ k → k < r.nnz → ∃ q, q < m ∧ r.idx.get k = ri.idx.get q) ∧
      ∀ c, r.coef c = r0.coef c - ∑ q ∈ range m, if ri.idx.get q = c then F.drop nrm (dd * ri.val.get q) else 0)
    (Nat.zero_le _) ⟨h0, le_rfl, fun _ _ => rfl, fun k h1 h2 => by omega, fun c => by simp⟩ ?_ ?_
  · rintro m r - hmi ⟨g1, g2, g3, g4, g5⟩
    unfold svSub1
    simp only [Ok_bind, Ok_rd]
    have hc := hi.idx m hmi
    refine ⟨by rw [hi.isz]; omega, by omega, by rw [hi.vsz]; omega, ?_⟩
    rcases hk : F.keep nrm (dd * ri.val.get m) with _ | _
    · simp only [Bool.false_eq_true, if_false, Ok_pure]
      refine ⟨g1, g2, g3, fun k h1 h2 => ?_, fun c => ?_⟩
      · obtain ⟨q, hq, he⟩ := g4 k h1 h2
        exact ⟨q, by omega, he⟩
      · rw [g5 c, sum_range_succ]
        simp [SvOps.drop, hk]
    · simp only [if_true]
      have hd : F.drop nrm (dd * ri.val.get m) = dd * ri.val.get m := by simp [SvOps.drop, hk]
      split <;> rename_i hj
      · -- the element is there
        have hex : ∃ p, p < r0.nnz ∧ r0.idx.get p = ri.idx.get m := by
          by_contra hne
          exact hj (hz _ (by omega) fun k hk he => hne ⟨k, hk, he⟩)
        obtain ⟨p, hp, hpe⟩ := hex
        have hww := hm p hp
        rw [hpe] at hww
        rw [hww]
        simp only [Nat.add_sub_cancel, Ok_bind, Ok_rd, Ok_wr, Ok_pure]
        have := g1.le
        refine ⟨by rw [g1.vsz]; omega, by rw [g1.vsz]; omega,
          ⟨g1.le, g1.isz, g1.vsz, g1.pos, g1.idx, g1.inj⟩, g2, g3, fun k h1 h2 => ?_, fun c => ?_⟩
        · obtain ⟨q, hq, he⟩ := g4 k h1 h2
          exact ⟨q, by omega, he⟩
        · rw [sum_range_succ, hd]
          have e : SvRow.coef ⟨r.nnz, r.ma, r.idx, r.val.set p (r.val.get p - dd * ri.val.get m)⟩ c =
              r.coef c - if ri.idx.get m = c then dd * ri.val.get m else 0 := by
            unfold SvRow.coef
            simp only
            rw [← add_sum_erase _ _ (mem_range.2 (show p < r.nnz by omega)),
              ← add_sum_erase (range r.nnz) (fun k => if r.idx.get k = c then r.val.get k else 0)
                (mem_range.2 (show p < r.nnz by omega))]
            have e2 : ∑ x ∈ (range r.nnz).erase p, (if r.idx.get x = c then
                (r.val.set p (r.val.get p - dd * ri.val.get m)).get x else 0) =
                ∑ x ∈ (range r.nnz).erase p, (if r.idx.get x = c then r.val.get x else 0) := by
              refine sum_congr rfl fun x hx => ?_
              rw [Arr.set_get_ne _ _ (ne_of_mem_erase hx)]
            rw [e2, Arr.set_get_self, g3 p hp, hpe]
            split <;> ring
          rw [e, g5 c]
          ring
      · simp only [ne_eq, not_not] at hj
        have hnot : ∀ k, k < r0.nnz → r0.idx.get k ≠ ri.idx.get m := fun k hk he => by
          have := hm k hk
          rw [he, hj] at this
          omega
        have hnot' : ∀ k, k < r.nnz → r.idx.get k ≠ ri.idx.get m := by
          intro k hk he
          rcases Nat.lt_or_ge k r0.nnz with h | h
          · rw [g3 k h] at he
            exact hnot k h he
          · obtain ⟨q, hq, hqe⟩ := g4 k h hk
            rw [hqe] at he
            have := hi.inj q m (by omega) hmi he
            omega
        refine (svPush_spec J ha g1 (by omega) hnot').mono ?_
        rintro r' ⟨p1, p2, p3, p4, p5⟩
        refine ⟨p1, by omega, fun k hk => by rw [p3 k (by omega), g3 k hk], fun k h1 h2 => ?_, fun c => ?_⟩
        · rcases Nat.lt_or_ge k r.nnz with h | h
          · obtain ⟨q, hq, he⟩ := g4 k h1 h
            exact ⟨q, by omega, by rw [p3 k h, he]⟩
          · obtain rfl : k = r.nnz := by omega
            exact ⟨m, by omega, p4⟩
        · rw [p5 c, g5 c, sum_range_succ, hd]
          split <;> ring
  · rintro r ⟨g1, g2, g3, g4, g5⟩
    refine ⟨g1, g2, g3, fun c => ?_⟩
    rw [g5 c, SvRow.sum_drop F nrm dd hi.inj c]

/-- all rows of a factor are good -/
def SvGood (n : ℕ) (M : Arr (SvRow R)) : Prop := M.size = n ∧ ∀ j, j < n → (M.get j).Good j

/-- the marks are clear -/
def SvClear (n : ℕ) (ww : Arr ℕ) : Prop := ww.size = n ∧ ∀ c, c < n → ww.get c = 0

theorem svSub_spec [CommRing R] (F : SvOps R) (J : SvJunk R) {annz n i j : ℕ} (ha : 1 ≤ annz) (hij : i < j) (hj : j < n)
    (nrm dd : R) {M : Arr (SvRow R)} {ww : Arr ℕ} (hM : SvGood n M) (hw : SvClear n ww) :
    Ok (svSub F J annz i j nrm dd (M, ww)) fun s => SvGood n s.1 ∧ SvClear n s.2 ∧
      (∀ k, k ≠ j → s.1.get k = M.get k) ∧
      ∀ c, (s.1.get j).coef c = (M.get j).coef c - F.drop nrm (dd * (M.get i).coef c) := by
  unfold svSub
  simp only [Ok_bind, Ok_rd, Ok_wr, Ok_pure]
  refine ⟨by rw [hM.1]; exact hj, ?_⟩
  refine (svMark_spec (hM.2 j hj) (ww := ww) (by rw [hw.1]; exact hj)).mono ?_
  rintro w ⟨w1, w2, w3⟩
  refine ⟨by rw [hM.1]; omega, ?_⟩
  have hws : w.size = n := w1.trans hw.1
  refine (svSub1_loop F J ha hij nrm dd (hM.2 i (by omega)) (hM.2 j hj) (ww := w) (by omega) w2
    (fun c hc hn => by rw [w3 c hn]; exact hw.2 c (by omega))).mono ?_
  rintro r ⟨r1, r2, r3, r4⟩
  refine (svUnmark_spec r1 (ww := w) (by omega)).mono ?_
  rintro w' ⟨v1, v2, v3⟩
  refine ⟨by rw [hM.1]; exact hj, ⟨hM.1, fun k hk => ?_⟩, ⟨v1.trans hws, fun c hc => ?_⟩, fun k hk => ?_, fun c => ?_⟩
  · rw [Arr.set_get]
    split <;> rename_i he
    · rw [he]; exact r1
    · exact hM.2 k hk
  · rcases Classical.em (∃ k, k < r.nnz ∧ r.idx.get k = c) with ⟨k, hk, rfl⟩ | h
    · exact v2 k hk
    · rw [v3 c fun k hk he => h ⟨k, hk, he⟩, w3 c fun k hk he => h ⟨k, by omega, by rw [r3 k hk]; exact he⟩]
      exact hw.2 c hc
  · exact Arr.set_get_ne _ _ hk
  · rw [Arr.set_get_self]; exact r4 c

/-- the positions listed in `il` -/
def Listed (il : Arr ℕ) (cl c : ℕ) : Prop := ∃ k, k < cl ∧ il.get k = c

theorem svSubAll_spec [CommRing R] (F : SvOps R) (J : SvJunk R) {annz n i cl : ℕ} (ha : 1 ≤ annz) (hi : i < n) (nrm di : R)
    {l : Arr R} {il : Arr ℕ} (hl : l.size = n) (hil : cl ≤ il.size)
    (hr : ∀ k, k < cl → i < il.get k ∧ il.get k < n) (hinj : ∀ k m, k < cl → m < cl → il.get k = il.get m → k = m)
    (h0 : ∀ j, i < j → j < n → ¬ Listed il cl j → l.get j = 0)
    {M : Arr (SvRow R)} {ww : Arr ℕ} (hM : SvGood n M) (hw : SvClear n ww) :
    Ok (svSubAll F J annz i nrm l il cl di (M, ww)) fun s => SvGood n s.1 ∧ SvClear n s.2 ∧
      (∀ j, j ≤ i → s.1.get j = M.get j) ∧
      ∀ j, i < j → j < n → ∀ c,
        (s.1.get j).coef c = (M.get j).coef c - F.drop nrm (l.get j * di * (M.get i).coef c) := by
  unfold svSubAll
  refine Ok_loop_le (fun m s => SvGood n s.1 ∧ SvClear n s.2 ∧
      (∀ j, ¬ Listed il m j → s.1.get j = M.get j) ∧
      ∀ j, Listed il m j → ∀ c,
        (s.1.get j).coef c = (M.get j).coef c - F.drop nrm (l.get j * di * (M.get i).coef c))
    (Nat.zero_le _) ⟨hM, hw, fun _ _ => rfl, fun j hj => by obtain ⟨k, hk, _⟩ := hj; omega⟩ ?_ ?_
  · rintro m ⟨M', w'⟩ - hm ⟨g1, g2, g3, g4⟩
    simp only at g1 g2 g3 g4
    obtain ⟨a1, a2⟩ := hr m hm
    simp only [Ok_bind, Ok_rd]
    refine ⟨by omega, by omega, ?_⟩
    have hni : ¬ Listed il m i := by
      rintro ⟨k, hk, he⟩
      have := (hr k (by omega)).1
      omega
    have hnj : ¬ Listed il m (il.get m) := by
      rintro ⟨k, hk, he⟩
      have := hinj k m (by omega) hm he
      omega
    refine (svSub_spec F J ha a1 a2 nrm (l.get (il.get m) * di) g1 g2).mono ?_
    rintro ⟨M2, w2⟩ ⟨f1, f2, f3, f4⟩
    refine ⟨f1, f2, fun j hj => ?_, fun j hj c => ?_⟩
    · have hne : j ≠ il.get m := fun he => hj ⟨m, by omega, he.symm⟩
      rw [f3 j hne]
      exact g3 j fun ⟨k, hk, he⟩ => hj ⟨k, by omega, he⟩
    · obtain ⟨k, hk, he⟩ := hj
      rcases Nat.lt_or_ge k m with hkm | hkm
      · have hne : j ≠ il.get m := fun h => by
          have := hinj k m (by omega) hm (by rw [he, h])
          omega
        simp only
        rw [f3 j hne]
        exact g4 j ⟨k, hkm, he⟩ c
      · obtain rfl : k = m := by omega
        rw [← he, f4 c, g3 _ hnj, g3 _ hni]
  · rintro ⟨M', w'⟩ ⟨g1, g2, g3, g4⟩
    refine ⟨g1, g2, fun j hj => g3 j ?_, fun j h1 h2 c => ?_⟩
    · rintro ⟨k, hk, he⟩
      have := (hr k hk).1
      omega
    · rcases Classical.em (Listed il cl j) with h | h
      · exact g4 j h c
      · rw [g3 j h, h0 j h1 h2 h, zero_mul, zero_mul, SvOps.drop_zero, sub_zero]

/-! ### the products -/

/-- invariant of the product loops -/
structure SvAcc.Inv [Zero R] (n i : ℕ) (s : SvAcc R) : Prop where
  vsz : s.val.size = n
  wsz : s.ww.size = n
  isz : s.il.size = n
  rng : ∀ k, k < s.cl → i < s.il.get k ∧ s.il.get k < n
  inj : ∀ k m, k < s.cl → m < s.cl → s.il.get k = s.il.get m → k = m
  mark : ∀ c, c < n → (s.ww.get c ≠ 0 ↔ Listed s.il s.cl c)
  zero : ∀ c, i < c → c < n → ¬ Listed s.il s.cl c → s.val.get c = 0

theorem Listed.room {il : Arr ℕ} {cl c n : ℕ} (hc : c < n) (hr : ∀ k, k < cl → il.get k < n)
    (hinj : ∀ k m, k < cl → m < cl → il.get k = il.get m → k = m) (hn : ¬ Listed il cl c) : cl < n := by
  have h1 : ((range cl).image il.get).card = cl := by
    rw [card_image_of_injOn, card_range]
    intro k hk m hm he
    exact hinj k m (by simpa using hk) (by simpa using hm) he
  have h2 : c ∉ (range cl).image il.get := by
    intro h
    obtain ⟨k, hk, he⟩ := mem_image.1 h
    exact hn ⟨k, mem_range.1 hk, he⟩
  have h3 : insert c ((range cl).image il.get) ⊆ range n := by
    intro x hx
    rcases mem_insert.1 hx with rfl | hx
    · exact mem_range.2 hc
    · obtain ⟨k, hk, rfl⟩ := mem_image.1 hx
      exact mem_range.2 (hr k (mem_range.1 hk))
  have h4 := card_le_card h3
  rw [card_insert_of_notMem h2, h1, card_range] at h4
  exact h4

theorem svSee_spec [Zero R] {n i jj : ℕ} (h1 : i < jj) (h2 : jj < n) {v : Arr R} {s : SvAcc R} (hv : v.size = n)
    (h : s.Inv n i) (hz : ∀ c, c ≠ jj → v.get c = s.val.get c) :
    Ok (svSee jj ⟨v, s.ww, s.il, s.cl⟩) fun s' => s'.Inv n i ∧ s'.val = v := by
  unfold svSee
  simp only [Ok_bind, Ok_rd]
  refine ⟨by rw [h.wsz]; exact h2, ?_⟩
  split <;> rename_i hf
  · have hn : ¬ Listed s.il s.cl jj := fun hl => ((h.mark jj h2).2 hl) hf
    have hroom := Listed.room h2 (fun k hk => (h.rng k hk).2) h.inj hn
    simp only [Ok_bind, Ok_wr, Ok_pure]
    refine ⟨by rw [h.wsz]; exact h2, by rw [h.isz]; exact hroom, ⟨hv, h.wsz, h.isz, ?_, ?_, ?_, ?_⟩, trivial⟩
    · intro k hk
      simp only at hk ⊢
      rw [Arr.set_get]
      split
      · exact ⟨h1, h2⟩
      · exact h.rng k (by omega)
    · intro k m hk hm he
      simp only [Arr.set_get] at hk hm he
      split at he <;> split at he <;> rename_i e1 e2
      · omega
      · exact absurd ⟨m, by omega, he.symm⟩ hn
      · exact absurd ⟨k, by omega, he⟩ hn
      · exact h.inj k m (by omega) (by omega) he
    · intro c hc
      simp only [Arr.set_get]
      have key : Listed (s.il.set s.cl jj) (s.cl + 1) c ↔ c = jj ∨ Listed s.il s.cl c := by
        constructor
        · rintro ⟨k, hk, he⟩
          rw [Arr.set_get] at he
          split at he
          · exact .inl he.symm
          · exact .inr ⟨k, by omega, he⟩
        · rintro (rfl | ⟨k, hk, he⟩)
          · exact ⟨s.cl, by omega, by simp⟩
          · exact ⟨k, by omega, by rw [Arr.set_get_ne _ _ (by omega)]; exact he⟩
      rw [key]
      rcases Classical.em (c = jj) with rfl | hne
      · simp
      · simp only [hne, false_or]
        exact h.mark c hc
    · intro c h3 h4 hn'
      simp only at hn' ⊢
      have hne : c ≠ jj := fun he => hn' ⟨s.cl, by omega, by simp [he]⟩
      rw [hz c hne]
      exact h.zero c h3 h4 fun ⟨k, hk, he⟩ => hn' ⟨k, by omega, by rw [Arr.set_get_ne _ _ (by omega)]; exact he⟩
  · rw [Ok_pure]
    have hl : Listed s.il s.cl jj := (h.mark jj h2).1 hf
    refine ⟨⟨hv, h.wsz, h.isz, h.rng, h.inj, h.mark, ?_⟩, rfl⟩
    intro c h3 h4 hn'
    simp only at hn' ⊢
    rw [hz c (fun he => hn' (he ▸ hl))]
    exact h.zero c h3 h4 hn'

theorem svScan1_spec [CommRing R] {n : ℕ} {index : Arr ℕ} {value : Arr R} (all : Bool) {i : ℕ} (z : R) {j : ℕ}
    (hj : j < index.size) (hv : j < value.size) (hjn : index.get j < n) {s : SvAcc R} (h : s.Inv n i) :
    Ok (svScan1 index value all i z j s) fun s' => s'.Inv n i ∧
      ∀ c, (all = true ∨ i < c) → s'.val.get c = s.val.get c + (if index.get j = c then value.get j else 0) * z := by
  unfold svScan1
  simp only [Ok_bind, Ok_rd]
  refine ⟨hj, ?_⟩
  split <;> rename_i ha
  · simp only [Ok_bind, Ok_rd, Ok_wr]
    refine ⟨hv, by rw [h.vsz]; exact hjn, by rw [h.vsz]; exact hjn, ?_⟩
    have hval : ∀ c, (s.val.set (index.get j) (s.val.get (index.get j) + value.get j * z)).get c =
        s.val.get c + (if index.get j = c then value.get j else 0) * z := by
      intro c
      rw [Arr.set_get]
      split <;> rename_i he
      · rw [he, if_pos rfl]
      · rw [if_neg (fun h => he h.symm), zero_mul, add_zero]
    split <;> rename_i hi
    · refine (svSee_spec hi hjn (by simp [h.vsz]) h (fun c hc => Arr.set_get_ne _ _ hc)).mono ?_
      rintro s' ⟨g1, g2⟩
      exact ⟨g1, fun c _ => by rw [g2]; exact hval c⟩
    · rw [Ok_pure]
      refine ⟨⟨h.vsz, h.wsz, h.isz, h.rng, h.inj, h.mark, ?_⟩, fun c _ => hval c⟩
      intro c h3 h4 hn
      simp only at hn ⊢
      rw [Arr.set_get_ne _ _ (by omega)]
      exact h.zero c h3 h4 hn
  · rw [Ok_pure]
    refine ⟨h, fun c hc => ?_⟩
    rw [if_neg, zero_mul, add_zero]
    rintro rfl
    exact ha hc

/-- component `c` of line `ii` of a compressed matrix -/
def lineEntry [AddCommMonoid R] (ptr index : Arr ℕ) (value : Arr R) (ii c : ℕ) : R :=
  ∑ j ∈ Ico (ptr.get ii) (ptr.get (ii + 1)), if index.get j = c then value.get j else 0

theorem svScan_spec [CommRing R] {n nnz : ℕ} {ptr index : Arr ℕ} {value : Arr R} (hp : PtrWF n nnz ptr)
    (his : nnz ≤ index.size) (hvs : nnz ≤ value.size) (hidx : ∀ k, k < nnz → index.get k < n) (all : Bool) {i : ℕ}
    (hi : i < n) {z : SvRow R} (hz : z.Good i) {ww il : Arr ℕ} (hw : SvClear n ww) (hil : il.size = n) :
    Ok (svScan n ptr index value all i z ww il) fun s => SvClear n s.ww ∧ s.val.size = n ∧ s.il.size = n ∧ s.cl ≤ n ∧
      (∀ k, k < s.cl → i < s.il.get k ∧ s.il.get k < n) ∧
      (∀ k m, k < s.cl → m < s.cl → s.il.get k = s.il.get m → k = m) ∧
      (∀ j, i < j → j < n → ¬ Listed s.il s.cl j → s.val.get j = 0) ∧
      ∀ c, (all = true ∨ i < c) → s.val.get c = ∑ k ∈ range n, lineEntry ptr index value k c * z.coef k := by
  unfold svScan
  rw [Ok_bind]
  have hle := hz.le
  have hinit : SvAcc.Inv n i (⟨⟨n, fun _ => 0⟩, ww, il, 0⟩ : SvAcc R) := by
    refine ⟨rfl, hw.1, hil, fun k hk => ?_, fun k m hk => ?_, fun c hc => ?_, fun _ _ _ _ => rfl⟩
    · simp at hk
    · simp at hk
    · simp only [hw.2 c hc]
      simp [Listed]
  refine Ok_loop_le (fun m s => s.Inv n i ∧ ∀ c, (all = true ∨ i < c) → s.val.get c =
      ∑ k ∈ range m, lineEntry ptr index value (z.idx.get k) c * z.val.get k) (Nat.zero_le _)
    ⟨hinit, fun c _ => by simp⟩ ?_ ?_
  · rintro m s - hm ⟨g1, g2⟩
    have hc := hz.idx m hm
    simp only [Ok_bind, Ok_rd]
    have hps := hp.size
    refine ⟨by rw [hz.isz]; omega, by omega, by omega, by rw [hz.vsz]; omega, ?_⟩
    have hmono := hp.mono (z.idx.get m) (by omega)
    refine Ok_loop_le (fun j s' => s'.Inv n i ∧ ∀ c, (all = true ∨ i < c) → s'.val.get c = s.val.get c +
      (∑ q ∈ Ico (ptr.get (z.idx.get m)) j, if index.get q = c then value.get q else 0) * z.val.get m) hmono
      ⟨g1, fun c _ => by simp⟩ ?_ ?_
    · rintro j s' hlo hhi ⟨f1, f2⟩
      have hlt := hp.lt_nnz (show z.idx.get m < n by omega) hhi
      refine (svScan1_spec all (z.val.get m) (by omega) (by omega) (hidx j hlt) f1).mono ?_
      rintro s2 ⟨e1, e2⟩
      refine ⟨e1, fun c hc => ?_⟩
      rw [e2 c hc, f2 c hc, sum_Ico_succ_top hlo]
      ring
    · rintro s' ⟨f1, f2⟩
      refine ⟨f1, fun c hc => ?_⟩
      rw [f2 c hc, g2 c hc, sum_range_succ]
      rfl
  · rintro s ⟨g1, g2⟩
    rw [Ok_bind]
    have hcl : s.cl ≤ n := by
      rcases Nat.eq_zero_or_pos s.cl with h | h
      · omega
      · by_contra hgt
        -- the first `n+1` listed positions would be distinct numbers below `n`
        have := card_le_card (show (range s.cl).image s.il.get ⊆ range n from fun x hx => by
          obtain ⟨k, hk, rfl⟩ := mem_image.1 hx
          exact mem_range.2 (g1.rng k (mem_range.1 hk)).2)
        rw [card_image_of_injOn (fun k hk m hm he => g1.inj k m (by simpa using hk) (by simpa using hm) he), card_range,
          card_range] at this
        omega
    refine Ok_loop_le (fun m w => w.size = n ∧ (∀ k, k < m → w.get (s.il.get k) = 0) ∧
      ∀ c, ¬ Listed s.il m c → w.get c = s.ww.get c) (Nat.zero_le _) ⟨g1.wsz, fun k hk => by omega, fun _ _ => rfl⟩ ?_ ?_
    · rintro m w - hm ⟨w1, w2, w3⟩
      simp only [Ok_bind, Ok_rd, Ok_wr]
      refine ⟨by rw [g1.isz]; omega, by rw [w1]; exact (g1.rng m hm).2, by simp [w1], fun k hk => ?_, fun c hc => ?_⟩
      · rw [Arr.set_get]
        split <;> rename_i he
        · rfl
        · exact w2 k (by rcases Nat.lt_succ_iff_lt_or_eq.1 hk with h | rfl; exact h; exact absurd rfl he)
      · rw [Arr.set_get_ne _ _ (fun he => hc ⟨m, by omega, he.symm⟩)]
        exact w3 c fun ⟨k, hk, he⟩ => hc ⟨k, by omega, he⟩
    · rintro w ⟨w1, w2, w3⟩
      rw [Ok_pure]
      refine ⟨⟨w1, fun c hc => ?_⟩, g1.vsz, g1.isz, hcl, g1.rng, g1.inj, g1.zero, fun c hc => ?_⟩
      · rcases Classical.em (Listed s.il s.cl c) with ⟨k, hk, rfl⟩ | h
        · exact w2 k hk
        · simp only
          rw [w3 c h]
          by_contra hne
          exact h ((g1.mark c hc).1 hne)
      · simp only
        rw [g2 c hc]
        exact SvRow.sum_coef (fun k hk => lt_of_le_of_lt (hz.idx k hk) hi) fun k => lineEntry ptr index value k c

theorem svPivot_spec [CommRing R] {n i : ℕ} (hi : i < n) {u : Arr R} (hu : u.size = n) {z : SvRow R} (hz : z.Good i) :
    Ok (svPivot u z) fun t => t = ∑ k ∈ range n, u.get k * z.coef k := by
  unfold svPivot
  have hle := hz.le
  refine Ok_loop_sum' (fun k => u.get (z.idx.get k) * z.val.get k) ?_ ?_
  · intro k t _ hk
    have := hz.idx k hk
    simp only [Ok_bind, Ok_rd, Ok_pure]
    exact ⟨by rw [hz.isz]; omega, by omega, by rw [hz.vsz]; omega, trivial⟩
  · rw [zero_add, ← SvRow.sum_coef (fun k hk => lt_of_le_of_lt (hz.idx k hk) hi) u.get, range_eq_Ico]

/-- the number `1/nrm` of row `i` -/
def Csr.svNrm [Zero R] [One R] [Div R] (F : SvOps R) (A : Csr R) (i : ℕ) : R :=
  1 / (List.range' (A.ptr.get i) (A.ptr.get (i + 1) - A.ptr.get i)).foldl (fun m j => F.mx m (A.value.get j)) 0

theorem svNrm_spec [Zero R] [One R] [Div R] (F : SvOps R) {A : Csr R} (hA : A.WF) {i : ℕ} (hi : i < A.n) :
    Ok (svNrm F A i) fun m => m = A.svNrm F i := by
  unfold svNrm
  have hs := hA.ptr.size
  have hm := hA.ptr.mono i hi
  have hv := hA.vsz
  simp only [Ok_bind, Ok_rd]
  refine ⟨by omega, by omega, ?_⟩
  refine Ok_loop_le (fun j m => m = (List.range' (A.ptr.get i) (j - A.ptr.get i)).foldl
    (fun m j => F.mx m (A.value.get j)) 0) hm (by simp) ?_ ?_
  · rintro j m h1 h2 rfl
    have := hA.ptr.lt_nnz hi h2
    simp only [Ok_bind, Ok_rd, Ok_pure]
    refine ⟨by omega, ?_⟩
    rw [show j + 1 - A.ptr.get i = (j - A.ptr.get i) + 1 by omega, List.range'_concat, List.foldl_append]
    simp only [List.foldl_cons, List.foldl_nil]
    rw [show A.ptr.get i + 1 * (j - A.ptr.get i) = j by omega]
  · rintro m rfl
    rw [Ok_pure]
    rfl

end Lis
