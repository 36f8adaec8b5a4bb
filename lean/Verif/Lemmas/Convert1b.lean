import Verif.Lemmas.Convert1
import Verif.Props.Blocks

/-! Lemmas on the conversions to and from MSR. -/

namespace Lis
open Finset
variable {R : Type}

/-- off-diagonal elements of row `i` -/
def Csr.offRow (A : Csr R) (i : ℕ) : List (ℕ × R) := (A.rowList i).filter fun e => e.1 ≠ i

/-- 1 if row `i` stores its diagonal -/
def Csr.diagCnt (A : Csr R) (i : ℕ) : ℕ := if ∃ e ∈ A.rowList i, e.1 = i then 1 else 0

/-- last diagonal value of a list, `d` if none -/
def lastDiag (i : ℕ) (d : R) (l : List (ℕ × R)) : R := l.foldl (fun a e => if e.1 = i then e.2 else a) d

theorem lastDiag_snoc (i : ℕ) (d : R) (l : List (ℕ × R)) (e : ℕ × R) :
    lastDiag i d (l ++ [e]) = if e.1 = i then e.2 else lastDiag i d l := by
  simp [lastDiag, List.foldl_append]

theorem filter_key_le_one {l : List (ℕ × R)} (h : (l.map Prod.fst).Nodup) (i : ℕ) :
    (l.filter fun e => e.1 ≠ i).length + (if ∃ e ∈ l, e.1 = i then 1 else 0) = l.length := by
  induction l with
  | nil => simp
  | cons e l ih =>
    rw [List.map_cons, List.nodup_cons] at h
    have ih := ih h.2
    by_cases he : e.1 = i
    · have hn : ¬ ∃ x ∈ l, x.1 = i := by
        rintro ⟨x, hx, hxi⟩
        exact h.1 (List.mem_map.2 ⟨x, hx, by rw [hxi, he]⟩)
      rw [if_neg hn] at ih
      rw [if_pos ⟨e, by simp, he⟩, List.filter_cons_of_neg (by simpa using he)]
      simp only [List.length_cons]; omega
    · rw [List.filter_cons_of_pos (by simpa using he)]
      have : (∃ x ∈ e :: l, x.1 = i) ↔ ∃ x ∈ l, x.1 = i := by
        simp [he]
      simp only [this, List.length_cons]; omega

theorem msrDiagCount_spec {A : Csr R} (h : A.WF) {iw : Arr ℕ} (hiw : iw.size = A.n + 1) :
    Ok (msrDiagCount A iw) fun iw => iw.size = A.n + 1 ∧ ∀ i, i < A.n → iw.get (i + 1) = A.diagCnt i := by
  have hps := h.ptr.size
  have his := h.isz
  unfold msrDiagCount
  refine Ok_loop_le (fun i (w : Arr ℕ) => w.size = A.n + 1 ∧ ∀ k, k < i → w.get (k + 1) = A.diagCnt k) (Nat.zero_le _)
    ⟨hiw, by simp⟩ ?_ fun s h => h
  rintro i w _ hi ⟨w1, w2⟩
  simp only [Ok_bind, Ok_wr, Ok_rd]
  refine ⟨by omega, by omega, by omega, ?_⟩
  refine Ok_loop_le (fun j (w : Arr ℕ) => w.size = A.n + 1 ∧ (∀ k, k < i → w.get (k + 1) = A.diagCnt k) ∧
    ((w.get (i + 1) = 1 ∧ ∃ k, A.ptr.get i ≤ k ∧ k < j ∧ A.index.get k = i) ∨
     (w.get (i + 1) = 0 ∧ ∀ k, A.ptr.get i ≤ k → k < j → A.index.get k ≠ i))) (h.ptr.mono i hi)
    ⟨by simpa, fun k hk => by rw [Arr.set_get_ne _ _ (by omega)]; exact w2 k hk, ?_⟩ ?_ ?_
  · exact Or.inr ⟨by simp, fun k h1 h2 => by omega⟩
  · rintro j w hj1 hj2 ⟨w1, w2, w3⟩
    have := h.ptr.lt_nnz hi hj2
    simp only [Ok_bind, Ok_rd, Ok_ite, Ok_wr, Ok_pure]
    refine ⟨by omega, fun hc => ⟨by omega, by simpa, fun k hk => ?_, ?_⟩, fun hc => ⟨w1, w2, ?_⟩⟩
    · rw [Arr.set_get_ne _ _ (by omega)]; exact w2 k hk
    · exact Or.inl ⟨by simp, j, hj1, by omega, hc.symm⟩
    · rcases w3 with ⟨e, k, h1, h2, h3⟩ | ⟨e, h1⟩
      · exact Or.inl ⟨e, k, h1, by omega, h3⟩
      · refine Or.inr ⟨e, fun k hk1 hk2 => ?_⟩
        by_cases hkj : k = j
        · subst hkj; exact fun hh => hc hh.symm
        · exact h1 k hk1 (by omega)
  · rintro w ⟨w1, w2, w3⟩
    refine ⟨w1, fun k hk => ?_⟩
    by_cases hki : k = i
    · subst hki
      rw [Csr.diagCnt]
      rcases w3 with ⟨e, q, h1, h2, h3⟩ | ⟨e, h1⟩
      · rw [e, if_pos]
        simp only [Csr.rowList, List.mem_map, List.mem_range]
        exact ⟨_, ⟨q - A.ptr.get k, by omega, rfl⟩, by simpa [show A.ptr.get k + (q - A.ptr.get k) = q by omega] using h3⟩
      · rw [e, if_neg]
        simp only [Csr.rowList, List.mem_map, List.mem_range]
        rintro ⟨_, ⟨q, hq, rfl⟩, hh⟩
        exact h1 (A.ptr.get k + q) (by omega) (by omega) hh
    · exact w2 k (by omega)

/-- what csr2msr leaves in its arrays -/
structure MsrHolds (A : Csr R) (vjunk : ℕ → R) (N i : ℕ) (s : Arr ℕ × Arr R) : Prop where
  isz : s.1.size = N
  vsz : s.2.size = N
  ptr : ∀ q, q ≤ A.n → s.1.get q = A.n + 1 + (concatRows q A.offRow).length
  fil : Filled (fun q => (s.1.get (A.n + 1 + q), s.2.get (A.n + 1 + q))) (concatRows i A.offRow)
  dia : ∀ q, q < A.n → s.2.get q = if q < i then lastDiag q (vjunk q) (A.rowList q) else vjunk q

theorem csr2msr_spec' (junk : ℕ → ℕ → ℕ) (vjunk : ℕ → R) {A : Csr R} (h : A.WF) (hd : A.NoDup) :
    Ok (csr2msr junk vjunk A) fun r => r.1.n = A.n ∧ r.1.nnz = (concatRows A.n A.offRow).length ∧
      r.1.nnz + A.n = A.nnz + r.2 ∧
      MsrHolds A vjunk (A.n + 1 + r.1.nnz) A.n (r.1.index, r.1.value) := by
  have hps := h.ptr.size
  have his := h.isz
  have hvs := h.vsz
  have hoff : ∀ i, i < A.n → (A.offRow i).length + A.diagCnt i = (A.rowList i).length := fun i hi =>
    filter_key_le_one (hd.rowList hi) i
  have hnnz : A.nnz = ∑ i ∈ range A.n, (A.rowList i).length := by
    rw [h.rows.nnz, concatRows_length]
  have hsum : (concatRows A.n A.offRow).length + ∑ i ∈ range A.n, A.diagCnt i = A.nnz := by
    rw [concatRows_length, ← sum_add_distrib, hnnz]
    exact sum_congr rfl fun i hi => hoff i (by simpa using hi)
  have hcn : ∑ i ∈ range A.n, A.diagCnt i ≤ A.n := by
    have : ∑ i ∈ range A.n, A.diagCnt i ≤ ∑ _i ∈ range A.n, 1 :=
      sum_le_sum fun i _ => by unfold Csr.diagCnt; split <;> omega
    simpa using this
  unfold csr2msr
  simp only [Ok_bind]
  refine Ok_fillConst (by simp) fun iw0 hiw0 _ => ?_
  simp only [Arr.malloc_size] at hiw0
  refine (msrDiagCount_spec h hiw0).mono ?_
  rintro iw ⟨hiw, hcnt⟩
  refine Ok_loop_le (fun i c => c = ∑ k ∈ range i, A.diagCnt k) (Nat.zero_le _) rfl ?_ ?_
  · rintro i c _ hi rfl
    simp only [Ok_bind, Ok_rd, Ok_pure]
    exact ⟨by omega, by rw [sum_range_succ, hcnt i hi]⟩
  rintro c rfl
  refine Ok_loop_le (fun i (w : Arr ℕ) => w.size = A.n + 1 ∧ (∀ k, k < i → w.get (k + 1) = (A.offRow k).length) ∧
    ∀ k, i ≤ k → k < A.n → w.get (k + 1) = A.diagCnt k) (Nat.zero_le _) ⟨hiw, by simp, fun k _ hk => hcnt k hk⟩ ?_ ?_
  · rintro i w _ hi ⟨w1, w2, w3⟩
    simp only [Ok_bind, Ok_rd, Ok_wr]
    have h1 := hoff i hi
    rw [Csr.rowList_length] at h1
    refine ⟨by omega, by omega, by omega, by omega, by simpa, fun k hk => ?_, fun k hk hk' => ?_⟩
    · rw [Arr.set_get]
      split
      · next hh =>
        rw [show k = i by omega, w3 i le_rfl hi]; omega
      · exact w2 k (by omega)
    · rw [Arr.set_get_ne _ _ (by omega)]; exact w3 k (by omega) hk'
  rintro w ⟨w1, w2, -⟩
  simp only [Ok_wr]
  refine ⟨by omega, ?_⟩
  refine Ok_accum (b := A.n + 1) (fun k => (A.offRow k).length) (by simp)
    (fun i hi => by rw [Arr.set_get_ne _ _ (by omega)]; exact w2 i hi) ?_ ?_
  · intro i q hi hq
    simp only [Arr.set_size] at hq
    simp only [Ok_bind, Ok_rd, Ok_wr]
    exact ⟨by omega, by omega, by omega, trivial⟩
  intro p hp hpv
  simp only [Arr.set_size] at hp
  set N := A.nnz + (A.n - ∑ k ∈ range A.n, A.diagCnt k) + 1 with hN
  have hN' : N = A.n + 1 + (concatRows A.n A.offRow).length := by omega
  refine Ok_loop_le (fun i (ix : Arr ℕ) => ix.size = N ∧ ∀ q, q < i → ix.get q = A.n + 1 + (concatRows q A.offRow).length)
    (Nat.zero_le _) ⟨rfl, by simp⟩ ?_ ?_
  · rintro i ix _ hi ⟨x1, x2⟩
    simp only [Ok_bind, Ok_rd, Ok_wr]
    refine ⟨by omega, by omega, by simpa, fun q hq => ?_⟩
    rw [Arr.set_get]
    split
    · next hh => rw [hh, hpv i (by omega), concatRows_length]
    · exact x2 q (by omega)
  rintro ix ⟨x1, x2⟩
  refine Ok_loop_le (fun i s => MsrHolds A vjunk N i s) (Nat.zero_le _)
    ⟨x1, rfl, fun q hq => x2 q (by omega), Filled.nil _, by simp⟩ ?_ ?_
  · rintro i ⟨ix, vl⟩ _ hi ⟨s1, s2, s3, s4, s5⟩
    simp only at s1 s2 s3 s4 s5
    simp only [Ok_bind, Ok_rd]
    refine ⟨by omega, by omega, by omega, ?_⟩
    refine Ok_loop_le (fun j (s : ℕ × Arr ℕ × Arr R) => ∃ t, j = A.ptr.get i + t ∧
      s.1 = A.n + 1 + (concatRows i A.offRow ++ ((A.rowList i).take t).filter fun e => e.1 ≠ i).length ∧
      s.2.1.size = N ∧ s.2.2.size = N ∧
      (∀ q, q ≤ A.n → s.2.1.get q = A.n + 1 + (concatRows q A.offRow).length) ∧
      Filled (fun q => (s.2.1.get (A.n + 1 + q), s.2.2.get (A.n + 1 + q)))
        (concatRows i A.offRow ++ ((A.rowList i).take t).filter fun e => e.1 ≠ i) ∧
      ∀ q, q < A.n → s.2.2.get q = if q < i then lastDiag q (vjunk q) (A.rowList q) else
        if q = i then lastDiag i (vjunk i) ((A.rowList i).take t) else vjunk q) (h.ptr.mono i hi)
      ⟨0, rfl, by simp [s3 i (by omega)], s1, s2, s3, by simpa using s4, ?_⟩ ?_ ?_
    · intro q hq
      rw [s5 q hq]
      split
      · rfl
      · split
        · next hh => subst hh; rfl
        · rfl
    · rintro j ⟨k, ix, vl⟩ hj1 hj2 ⟨t, rfl, g1, g2, g3, g4, g5, g6⟩
      simp only at g1 g2 g3 g4 g5 g6
      have hjn := h.ptr.lt_nnz hi hj2
      have ht : t < (A.rowList i).length := by rw [Csr.rowList_length]; omega
      have het : (A.rowList i)[t] = (A.index.get (A.ptr.get i + t), A.value.get (A.ptr.get i + t)) := by
        simp [Csr.rowList]
      have htake : (A.rowList i).take (t + 1) = (A.rowList i).take t ++ [(A.index.get (A.ptr.get i + t), A.value.get (A.ptr.get i + t))] := by
        rw [← het]; exact (List.take_append_getElem ht).symm
      simp only [Ok_bind, Ok_rd, Ok_ite, Ok_wr, Ok_pure]
      refine ⟨by omega, by omega, fun hc => ⟨by omega, t + 1, by omega, ?_, g2, by simpa, g4, ?_, ?_⟩, fun hc => ?_⟩
      · rw [htake, List.filter_append, List.filter_cons_of_neg (by simpa using hc)]; simpa using g1
      · rw [htake, List.filter_append, List.filter_cons_of_neg (by simpa using hc), List.filter_nil, List.append_nil]
        intro q hq
        rw [← g5 q hq]
        simp only
        rw [Arr.set_get_ne _ _ (by omega)]
      · intro q hq
        rw [Arr.set_get, htake, lastDiag_snoc]
        simp only [hc, if_true]
        split
        · next hh => rw [if_neg (by omega)]
        · next hh => rw [g6 q hq]; split <;> simp [hh]
      · have hsn : concatRows i A.offRow ++ ((A.rowList i).take (t + 1)).filter (fun e => e.1 ≠ i) =
          (concatRows i A.offRow ++ ((A.rowList i).take t).filter fun e => e.1 ≠ i) ++
            [(A.index.get (A.ptr.get i + t), A.value.get (A.ptr.get i + t))] := by
          rw [htake, List.filter_append, List.filter_cons_of_pos (by simpa using hc), List.filter_nil, List.append_assoc]
        have hroom : (concatRows i A.offRow ++ ((A.rowList i).take (t + 1)).filter fun e => e.1 ≠ i).length ≤
            (concatRows A.n A.offRow).length := by
          refine le_trans ?_ (concatRows_prefix (n := i + 1) hi A.offRow).length_le
          rw [concatRows_succ, List.length_append, List.length_append]
          have : (((A.rowList i).take (t + 1)).filter fun e => e.1 ≠ i).length ≤ (A.offRow i).length :=
            ((List.take_sublist _ _).filter _).length_le
          omega
        rw [hsn] at hroom
        rw [List.length_append, List.length_singleton] at hroom
        refine ⟨by omega, by omega, t + 1, by omega, ?_, by simpa, by simpa, fun q hq => ?_, ?_, fun q hq => ?_⟩
        · rw [hsn, List.length_append, List.length_singleton]; omega
        · rw [Arr.set_get_ne _ _ (by omega)]; exact g4 q hq
        · rw [hsn]
          refine g5.snoc fun q => ?_
          simp only [Arr.set_get, g1, Nat.add_left_cancel_iff]
          split <;> rfl
        · rw [Arr.set_get_ne _ _ (by omega), g6 q hq, htake, lastDiag_snoc]
          simp only [hc, if_false]
    · rintro ⟨k, ix, vl⟩ ⟨t, ht, g1, g2, g3, g4, g5, g6⟩
      simp only at g1 g2 g3 g4 g5 g6
      have hl := Csr.rowList_length A i
      have htk : (A.rowList i).take t = A.rowList i := List.take_of_length_le (by omega)
      rw [htk] at g5 g6
      rw [Ok_pure]
      refine ⟨g2, g3, g4, ?_, fun q hq => ?_⟩
      · rw [concatRows_succ]; exact g5
      · simp only
        rw [g6 q hq]
        by_cases h1 : q < i
        · rw [if_pos h1, if_pos (by omega)]
        · by_cases h2 : q = i
          · subst h2; rw [if_neg h1, if_pos rfl, if_pos (by omega)]
          · rw [if_neg h1, if_neg h2, if_neg (by omega)]
  · rintro ⟨ix, vl⟩ hM
    rw [Ok_pure]
    simp only
    have e : A.nnz - ∑ k ∈ range A.n, A.diagCnt k = (concatRows A.n A.offRow).length := by omega
    refine ⟨trivial, e, by omega, ?_⟩
    rw [e, ← hN']
    exact hM

/-- elements of row `i` of an MSR matrix as msr2csr emits them -/
def Msr.nzRow [Zero R] [DecidableEq R] (A : Msr R) (i : ℕ) : List (ℕ × R) :=
  (if A.value.get i ≠ 0 then [(i, A.value.get i)] else []) ++
    emits (A.index.get i) (A.index.get (i + 1)) fun j => [(A.index.get j, A.value.get j)]

theorem msr2csr_spec' [Zero R] [DecidableEq R] (junk : ℕ → ℕ → ℕ) (vjunk : ℕ → R) (nnz : ℕ) {A : Msr R} (h : A.WF)
    (hroom : (concatRows A.n A.nzRow).length ≤ nnz) :
    Ok (msr2csr junk vjunk nnz A) fun C => C.n = A.n ∧ C.np = A.n ∧ C.nnz = nnz ∧
      C.ptr.get A.n ≤ nnz ∧ ({ C with nnz := C.ptr.get A.n } : Csr R).Rows A.nzRow := by
  have his := h.isz
  have hvs := h.vsz
  have hlast := h.last
  have hmono : ∀ i, i ≤ A.n → A.index.get i ≤ A.n + 1 + A.nnz := by
    have : ∀ k, k ≤ A.n → A.index.get (A.n - k) ≤ A.n + 1 + A.nnz := by
      intro k
      induction k with
      | zero => intro _; rw [Nat.sub_zero, h.last]
      | succ k ih =>
        intro hk
        have := h.mono (A.n - (k + 1)) (by omega)
        rw [show A.n - (k + 1) + 1 = A.n - k by omega] at this
        exact this.trans (ih (by omega))
    intro i hi
    have := this (A.n - i) (by omega)
    rwa [show A.n - (A.n - i) = i by omega] at this
  have hnl : ∀ i, i < A.n → (A.nzRow i).length = A.index.get (i + 1) - A.index.get i + if A.value.get i ≠ 0 then 1 else 0 := by
    intro i hi
    unfold Msr.nzRow
    rw [List.length_append, emits_length]
    split <;> simp <;> omega
  unfold msr2csr
  simp only [Ok_bind]
  refine Ok_loop_le (fun i (p : Arr ℕ) => p.size = A.n + 1 ∧ ∀ k, k < i → p.get (k + 1) = (A.nzRow k).length)
    (Nat.zero_le _) ⟨rfl, by simp⟩ ?_ ?_
  · rintro i p _ hi ⟨p1, p2⟩
    have hnli := hnl i hi
    simp only [Ok_bind, Ok_rd, Ok_wr, Ok_ite, Ok_pure, Arr.set_size]
    refine ⟨by omega, by omega, by omega, by omega, fun hv => ⟨by omega, by omega, p1, fun k hk => ?_⟩,
      fun hv => ⟨p1, fun k hk => ?_⟩⟩
    · rw [if_pos hv] at hnli
      by_cases hki : k = i
      · subst hki; simp [hnli]
      · rw [Arr.set_get_ne _ _ (by omega), Arr.set_get_ne _ _ (by omega)]; exact p2 k (by omega)
    · rw [if_neg hv] at hnli
      by_cases hki : k = i
      · subst hki; simp [hnli]
      · rw [Arr.set_get_ne _ _ (by omega)]; exact p2 k (by omega)
  rintro p ⟨p1, p2⟩
  simp only [Ok_wr]
  refine ⟨by omega, ?_⟩
  refine Ok_accum (b := 0) (fun i => (A.nzRow i).length) (by simp)
    (fun i hi => by rw [Arr.set_get_ne _ _ (by omega)]; exact p2 i hi) ?_ ?_
  · intro i q hi hq
    simp only [Arr.set_size] at hq
    simp only [Ok_bind, Ok_rd, Ok_wr]
    exact ⟨by omega, by omega, by omega, trivial⟩
  intro ptr hp hpv
  simp only [Arr.set_size] at hp
  simp only [Nat.zero_add] at hpv
  have hpl : ∀ i, i ≤ A.n → ptr.get i = (concatRows i A.nzRow).length := fun i hi => by
    rw [hpv i hi, concatRows_length]
  refine Ok_fillRows (cap := nnz) (ptr := ptr) (L := A.nzRow) rfl rfl hroom hpl ?_ ?_
  · rintro i ⟨ix, vl⟩ hi hP
    have hle := (concatRows_prefix (n := i + 1) hi A.nzRow).length_le.trans hroom
    have hm1 := hmono i (by omega)
    have hm2 := hmono (i + 1) (by omega)
    simp only [Ok_bind, Ok_rd]
    refine ⟨by omega, by omega, ?_⟩
    have hle' : (concatRows i A.nzRow ++ if A.value.get i ≠ 0 then [(i, A.value.get i)] else []).length ≤ nnz := by
      refine le_trans ?_ hle
      rw [concatRows_succ, List.length_append, List.length_append]
      unfold Msr.nzRow
      rw [List.length_append]
      omega
    obtain ⟨g1, g2⟩ := hP.pushIf _ hle'
    have hsplit : Ok (if A.value.get i ≠ 0 then do
        let value ← vl.wr (ptr.get i) (A.value.get i)
        let index ← ix.wr (ptr.get i) i
        pure (ptr.get i + 1, index, value)
      else pure (ptr.get i, ix, vl) : Option (ℕ × Arr ℕ × Arr R))
      (Pushed nnz (concatRows i A.nzRow ++ if A.value.get i ≠ 0 then [(i, A.value.get i)] else [])) := by
      simp only [Ok_bind, Ok_ite, Ok_wr, Ok_pure]
      exact ⟨fun hc => ⟨(g1 hc).2.1, (g1 hc).1, (g1 hc).2.2⟩, g2⟩
    refine hsplit.mono ?_
    intro s hs
    refine ⟨by omega, by omega, ?_⟩
    have e : (concatRows i A.nzRow ++ if A.value.get i ≠ 0 then [(i, A.value.get i)] else []) ++
        emits (A.index.get i) (A.index.get (i + 1)) (fun j => [(A.index.get j, A.value.get j)]) =
        concatRows (i + 1) A.nzRow := by
      rw [concatRows_succ, List.append_assoc]; rfl
    refine Ok_pushLoop (em := fun j => [(A.index.get j, A.value.get j)]) (h.mono i hi) hs ?_ ?_ ?_
    · rw [e]; exact hle
    · rintro j k ix vl F hj1 hj2 hP hroom
      obtain ⟨g1, g2, g3⟩ := hP.push _ hroom
      simp only [Ok_bind, Ok_rd, Ok_wr, Ok_pure]
      exact ⟨by omega, g2, by omega, g1, g3⟩
    · rintro ⟨k, ix, vl⟩ hP
      rw [Ok_pure]
      rw [e] at hP
      exact ⟨k, hP⟩
  · rintro ⟨ix, vl⟩ ⟨_, g2, g3, g4⟩
    rw [Ok_pure]
    simp only at g2 g3 g4
    have := hpl A.n le_rfl
    exact ⟨rfl, rfl, rfl, by simp only; omega, by simp only; omega, hpl, this, by simp only; omega, by simp only; omega, g4⟩

end Lis
