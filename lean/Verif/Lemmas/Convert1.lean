import Verif.Model.Convert1
import Verif.Base.Lists3
import Verif.Lemmas.Blocks

/-! Lemmas on the conversions of `Model/Convert1.lean`. -/

namespace Lis
open Finset
variable {R : Type}

theorem Csr.WF.concat_len {A : Csr R} (h : A.WF) {i : ℕ} (hi : i ≤ A.n) :
    (concatRows i A.rowList).length = A.ptr.get i := by
  induction i with
  | zero => simp [h.ptr.zero]
  | succ i ih =>
    rw [concatRows_succ, List.length_append, ih (by omega), Csr.rowList_length]
    have := h.ptr.mono i hi
    omega

theorem Csr.WF.rows {A : Csr R} (h : A.WF) : A.Rows A.rowList where
  psz := h.ptr.size
  ptr := fun i hi => (h.concat_len hi).symm
  nnz := by rw [h.concat_len le_rfl, h.ptr.last]
  isz := h.isz
  vsz := h.vsz
  fil := by
    have key : ∀ i, i ≤ A.n → Filled (fun q => (A.index.get q, A.value.get q)) (concatRows i A.rowList) := by
      intro i
      induction i with
      | zero => intro _; exact Filled.nil _
      | succ i ih =>
        intro hi q hq
        have hl := h.concat_len (i := i) (by omega)
        by_cases hq' : q < (concatRows i A.rowList).length
        · rw [ih (by omega) q hq']
          have := (concatRows_prefix (Nat.le_succ i) A.rowList).getElem hq'
          exact this
        · simp only [concatRows_succ] at hq ⊢
          rw [List.length_append] at hq
          rw [List.getElem_append_right (by omega)]
          simp only [Csr.rowList, List.getElem_map, List.getElem_range]
          rw [hl, show A.ptr.get i + (q - A.ptr.get i) = q by omega]
    exact key A.n le_rfl

theorem byKey_total {α : Type} {k : ℕ} {L : List (ℕ × α)} (h : ∀ e ∈ L, e.1 < k) :
    ∑ c ∈ range k, (byKey c L).length = L.length := by
  induction L using List.reverseRecOn with
  | nil => simp
  | append_singleton L e ih =>
    simp only [byKey_len_snoc, sum_add_distrib, List.length_append, List.length_singleton]
    rw [ih fun x hx => h x (by simp [hx]), sum_ite_eq, if_pos (by simpa using h e (by simp))]

theorem Segs.last {α : Type} {k : ℕ} {p : ℕ → ℕ} {L : List (ℕ × α)} (h : Segs k p L) (h0 : p 0 = 0)
    (hk : ∀ e ∈ L, e.1 < k) : p k = L.length := by
  rw [← byKey_total hk]
  have : ∀ i, i ≤ k → p i = ∑ c ∈ range i, (byKey c L).length := by
    intro i
    induction i with
    | zero => intro _; simpa
    | succ i ih => intro hi; rw [h.succ i hi, ih (by omega), sum_range_succ]
  exact this k le_rfl

theorem transposeArrays_spec {A : Csr R} (h : A.WF) (iwsz zeroed : ℕ) (hz : A.np ≤ zeroed) (hz' : zeroed ≤ iwsz)
    (junk : ℕ → ℕ → ℕ) (vjunk : ℕ → R) :
    Ok (transposeArrays A.n A.np A.nnz iwsz junk vjunk zeroed A.ptr A.index A.value) fun r =>
      (⟨A.np, A.n, A.nnz, r.1, r.2.1, r.2.2⟩ : Csr R).WF ∧
      (⟨A.n, A.np, A.nnz, r.1, r.2.1, r.2.2⟩ : Csc R).Cols (byCol A.n A.rowList) := by
  set L : ℕ → List (ℕ × ℕ × R) := fun i => (A.rowList i).map fun e => (e.1, (i, e.2)) with hL
  have hps := h.ptr.size
  have his := h.isz
  have hvs := h.vsz
  have hlen : ∀ i, i < A.n → A.ptr.get (i + 1) = A.ptr.get i + (L i).length := fun i hi => by
    have := h.ptr.mono i hi
    simp only [hL, List.length_map, Csr.rowList_length]; omega
  have hget : ∀ i j (hj : j < (L i).length), (L i)[j] =
      (A.index.get (A.ptr.get i + j), (i, A.value.get (A.ptr.get i + j))) := fun i j hj => by
    simp [hL, Csr.rowList]
  have hkey : ∀ i, i < A.n → ∀ j (hj : j < (L i).length), A.ptr.get i + j < A.nnz := fun i hi j hj =>
    h.ptr.lt_nnz hi (by rw [hlen i hi]; omega)
  have hbc : byCol A.n A.rowList = concatRows A.n L := rfl
  have hall : ∀ e ∈ concatRows A.n L, e.1 < A.np ∧ e.2.1 < A.n := by
    intro e he
    obtain ⟨i, hi, he⟩ := concatRows_mem.1 he
    simp only [hL, List.mem_map] at he
    obtain ⟨e', he', rfl⟩ := he
    exact ⟨h.rowList_col hi he', hi⟩
  have htot : (concatRows A.n L).length = A.nnz := by
    rw [← h.ptr.last, ← h.concat_len le_rfl, concatRows_length, concatRows_length]
    simp [hL]
  rw [hbc]
  clear_value L
  unfold transposeArrays
  simp only [Ok_bind]
  refine Ok_fillConst (by simpa) fun iw0 hiw0 hiz => ?_
  simp only [Arr.malloc_size] at hiw0
  refine Ok_rowsLoop (L := L) (fun pre iw => Counted A.np 0 pre iw ∧ iw.size = iwsz)
    ⟨⟨by omega, fun c hc => by simpa using hiz c (by omega)⟩, hiw0⟩ ?_ ?_
  · intro i iw hi hc
    simp only [Ok_bind, Ok_rd]
    refine ⟨by omega, by omega, ?_⟩
    refine Ok_rowLoop (L := L) (i := i) (fun pre iw => Counted A.np 0 pre iw ∧ iw.size = iwsz) (hlen i hi) hc ?_
      fun s h => h
    rintro j hj iw ⟨hc, hsz⟩
    have hk := hkey i hi j hj
    have he := h.idx _ hk
    have hst := hc.step (e := (L i)[j]) (by rw [hget]; exact he)
    simp only [hget, Nat.add_zero] at hst
    simp only [Ok_bind, Ok_rd, Ok_wr]
    rw [hget]
    exact ⟨by omega, by omega, by omega, hst.2, by simpa⟩
  rintro iw ⟨hc, hisz⟩
  simp only [Ok_wr]
  refine ⟨by simp, ?_⟩
  refine Ok_ptrLoop (full := concatRows A.n L) (by simp) hc ?_ ?_
  · intro i s hi hs1 hs2
    simp only [Arr.set_size, Arr.malloc_size] at hs1
    simp only [Ok_bind, Ok_rd, Ok_wr, Ok_pure]
    refine ⟨by omega, by omega, by omega, by omega, trivial⟩
  intro p w hp hw hp0 hsegs hwp
  simp only [Arr.set_size, Arr.malloc_size] at hp
  have hlast := hsegs.last hp0 fun e he => (hall e he).1
  rw [htot] at hlast
  refine Ok_rowsLoop (L := L) (fun pre (s : Arr ℕ × Arr ℕ × Arr R) => s.1.size = iwsz ∧
      s.2.1.size = A.nnz ∧ s.2.2.size = A.nnz ∧
      Scat A.np p.get pre s.1.get fun q => (s.2.1.get q, s.2.2.get q))
    ⟨by show w.size = iwsz; omega, rfl, rfl, Scat.nil hwp⟩ ?_ ?_
  · intro i s hi hI
    simp only [Ok_bind, Ok_rd]
    refine ⟨by omega, by omega, ?_⟩
    refine Ok_rowLoop (L := L) (i := i) (fun pre (s : Arr ℕ × Arr ℕ × Arr R) => s.1.size = iwsz ∧
      s.2.1.size = A.nnz ∧ s.2.2.size = A.nnz ∧
      Scat A.np p.get pre s.1.get fun q => (s.2.1.get q, s.2.2.get q)) (hlen i hi) hI ?_ fun s h => h
    rintro j hj ⟨iw, ix, vl⟩ ⟨hs1, hs2, hs3, hS⟩
    have hk := hkey i hi j hj
    have he := h.idx _ hk
    have hpre := concatRows_take_prefix hi L hj
    have hlt := hS.lt_end hsegs hpre (by rw [hget]; exact he)
    have hst := hS.put_arr hsegs hpre (by rw [hget]; exact he)
    simp only [hget] at hst hlt hs1 hs2 hs3
    rw [hget]
    simp only [Ok_bind, Ok_rd, Ok_wr, Ok_pure]
    exact ⟨by omega, by omega, by omega, by omega, by omega, by omega, by simpa, by simpa, by simpa, hst⟩
  · rintro ⟨iw, ix, vl⟩ ⟨hs1, hs2, hs3, hS⟩
    simp only at hs2 hs3
    rw [Ok_pure]
    have hC : (⟨A.n, A.np, A.nnz, p, ix, vl⟩ : Csc R).Cols (concatRows A.n L) :=
      ⟨by simp [hp], hp0, hsegs, hlast.symm, by simp [hs2], by simp [hs3], _, hS⟩
    have hw := hC.wf fun e he => (hall e he).2
    exact ⟨⟨hw.ptr, hw.isz, hw.vsz, hw.idx⟩, hC⟩


/-! ### COO -/

theorem csr2coo_spec' (junk : ℕ → ℕ → ℕ) (vjunk : ℕ → R) {A : Csr R} (h : A.WF) :
    Ok (csr2coo junk vjunk A) fun B => B.n = A.n ∧ B.nnz = A.nnz ∧ B.row.size = A.nnz ∧ B.col.size = A.nnz ∧
      B.value.size = A.nnz ∧
      Filled (fun q => (B.row.get q, B.col.get q, B.value.get q))
        (concatRows A.n fun i => (A.rowList i).map fun e => (i, e)) := by
  set L : ℕ → List (ℕ × ℕ × R) := fun i => (A.rowList i).map fun e => (i, e) with hL
  have hps := h.ptr.size
  have his := h.isz
  have hvs := h.vsz
  have hlen : ∀ i, i < A.n → A.ptr.get (i + 1) = A.ptr.get i + (L i).length := fun i hi => by
    have := h.ptr.mono i hi
    simp only [hL, List.length_map, Csr.rowList_length]; omega
  have hget : ∀ i j (hj : j < (L i).length), (L i)[j] =
      (i, A.index.get (A.ptr.get i + j), A.value.get (A.ptr.get i + j)) := fun i j hj => by
    simp [hL, Csr.rowList]
  have hkey : ∀ i, i < A.n → ∀ j (hj : j < (L i).length), A.ptr.get i + j < A.nnz := fun i hi j hj =>
    h.ptr.lt_nnz hi (by rw [hlen i hi]; omega)
  have htot : (concatRows A.n L).length = A.nnz := by
    rw [← h.ptr.last, ← h.concat_len le_rfl, concatRows_length, concatRows_length]
    simp [hL]
  clear_value L
  unfold csr2coo
  simp only [Ok_bind]
  refine Ok_rowsLoop (L := L) (fun pre (s : ℕ × Arr ℕ × Arr ℕ × Arr R) => s.1 = pre.length ∧ s.2.1.size = A.nnz ∧
      s.2.2.1.size = A.nnz ∧ s.2.2.2.size = A.nnz ∧
      Filled (fun q => (s.2.1.get q, s.2.2.1.get q, s.2.2.2.get q)) pre)
    ⟨rfl, rfl, rfl, rfl, Filled.nil _⟩ ?_ ?_
  · intro i s hi hs
    simp only [Ok_bind, Ok_rd]
    refine ⟨by omega, by omega, ?_⟩
    refine Ok_rowLoop (L := L) (i := i) (fun pre (s : ℕ × Arr ℕ × Arr ℕ × Arr R) => s.1 = pre.length ∧ s.2.1.size = A.nnz ∧
      s.2.2.1.size = A.nnz ∧ s.2.2.2.size = A.nnz ∧
      Filled (fun q => (s.2.1.get q, s.2.2.1.get q, s.2.2.2.get q)) pre) (hlen i hi) hs ?_ fun s h => h
    rintro j hj ⟨k, r, c, v⟩ ⟨s1, s2, s3, s4, s5⟩
    simp only at s1 s2 s3 s4 s5
    have hk := hkey i hi j hj
    have hle := (concatRows_take_prefix hi L hj).length_le
    rw [htot, List.length_append, List.length_singleton] at hle
    simp only [Ok_bind, Ok_rd, Ok_wr, Ok_pure]
    refine ⟨by omega, by omega, by omega, by omega, by omega, by simp [s1]; omega, by simpa, by simpa, by simpa, ?_⟩
    refine s5.snoc fun q => ?_
    simp only [Arr.set_get, s1, hget]
    split <;> rfl
  · rintro ⟨k, r, c, v⟩ ⟨s1, s2, s3, s4, s5⟩
    rw [Ok_pure]
    exact ⟨rfl, rfl, s2, s3, s4, s5⟩

/-! ### DNS -/

theorem csr2dns_spec' [Zero R] (vjunk : ℕ → R) {A : Csr R} (h : A.WF) :
    Ok (csr2dns vjunk A) fun B => B.n = A.n ∧ B.np = A.np ∧ B.value.size = A.n * A.np ∧
      ∀ i j, i < A.n → j < A.np → B.value.get (j * A.n + i) =
        lastVal (concatRows A.n fun i => (A.rowList i).map fun e => (i, e)) i j := by
  set L : ℕ → List (ℕ × ℕ × R) := fun i => (A.rowList i).map fun e => (i, e) with hL
  have hps := h.ptr.size
  have his := h.isz
  have hvs := h.vsz
  have hlen : ∀ i, i < A.n → A.ptr.get (i + 1) = A.ptr.get i + (L i).length := fun i hi => by
    have := h.ptr.mono i hi
    simp only [hL, List.length_map, Csr.rowList_length]; omega
  have hget : ∀ i j (hj : j < (L i).length), (L i)[j] =
      (i, A.index.get (A.ptr.get i + j), A.value.get (A.ptr.get i + j)) := fun i j hj => by
    simp [hL, Csr.rowList]
  have hkey : ∀ i, i < A.n → ∀ j (hj : j < (L i).length), A.ptr.get i + j < A.nnz := fun i hi j hj =>
    h.ptr.lt_nnz hi (by rw [hlen i hi]; omega)
  clear_value L
  unfold csr2dns
  simp only [Ok_bind]
  refine Ok_loop_le (fun j (v : Arr R) => v.size = A.n * A.np ∧ ∀ i' j', i' < A.n → j' < j → v.get (j' * A.n + i') = 0)
    (Nat.zero_le _) ⟨rfl, by simp⟩ ?_ ?_
  · rintro j v _ hj ⟨v1, v2⟩
    refine Ok_loop_le (fun i (v : Arr R) => v.size = A.n * A.np ∧ (∀ i' j', i' < A.n → j' < j → v.get (j' * A.n + i') = 0) ∧
      ∀ i', i' < i → v.get (j * A.n + i') = 0) (Nat.zero_le _) ⟨v1, v2, by simp⟩ ?_ ?_
    · rintro i v _ hi ⟨v1, v2, v3⟩
      rw [Ok_wr]
      have hlt := flat_lt (i := j) (n := A.np) (j := i) (m := A.n) hj hi
      rw [Nat.mul_comm A.np] at hlt
      refine ⟨by omega, by simpa, fun i' j' hi' hj' => ?_, fun i' hi' => ?_⟩
      · rw [Arr.set_get]; split
        · rfl
        · exact v2 i' j' hi' hj'
      · rw [Arr.set_get]; split
        · rfl
        · exact v3 i' (by omega)
    · rintro v ⟨v1, v2, v3⟩
      refine ⟨v1, fun i' j' hi' hj' => ?_⟩
      by_cases hjj : j' = j
      · subst hjj; exact v3 i' hi'
      · exact v2 i' j' hi' (by omega)
  rintro v ⟨v1, v2⟩
  refine Ok_rowsLoop (L := L) (fun pre (v : Arr R) => v.size = A.n * A.np ∧
    ∀ i j, i < A.n → j < A.np → v.get (j * A.n + i) = lastVal pre i j)
    ⟨v1, fun i j hi hj => by rw [v2 i j hi hj]; rfl⟩ ?_ ?_
  · intro i s hi hs
    simp only [Ok_bind, Ok_rd]
    refine ⟨by omega, by omega, ?_⟩
    refine Ok_rowLoop (L := L) (i := i) (fun pre (v : Arr R) => v.size = A.n * A.np ∧
      ∀ i j, i < A.n → j < A.np → v.get (j * A.n + i) = lastVal pre i j) (hlen i hi) hs ?_ fun s h => h
    rintro j hj v ⟨s1, s2⟩
    have hk := hkey i hi j hj
    have hc := h.idx _ hk
    have hlt := flat_lt (i := A.index.get (A.ptr.get i + j)) (n := A.np) (j := i) (m := A.n) hc hi
    simp only [Ok_bind, Ok_rd, Ok_wr]
    have hcm := Nat.mul_comm A.n (A.index.get (A.ptr.get i + j))
    rw [Nat.mul_comm A.np] at hlt
    refine ⟨by omega, by omega, by omega, by simpa, fun i' j' hi' hj' => ?_⟩
    rw [lastVal_snoc, hget, Arr.set_get, hcm]
    by_cases hh : i = i' ∧ A.index.get (A.ptr.get i + j) = j'
    · rw [if_pos hh, if_pos (by rw [hh.2, hh.1]; omega)]
    · rw [if_neg hh, if_neg, s2 i' j' hi' hj']
      intro he
      have := block_disj (p := j') (q := A.index.get (A.ptr.get i + j)) hi' hi (by omega)
      exact hh ⟨this.2.symm, this.1.symm⟩
  · rintro v ⟨s1, s2⟩
    rw [Ok_pure]
    exact ⟨rfl, rfl, s1, s2⟩

/-- element list of one row of a dense matrix: the nonzeros -/
def Dns.nzRow [Zero R] [DecidableEq R] (A : Dns R) (i : ℕ) : List (ℕ × R) :=
  concatRows A.np fun j => if A.value.get (j * A.n + i) ≠ 0 then [(j, A.value.get (j * A.n + i))] else []

theorem dns2csr_spec' [Zero R] [DecidableEq R] (junk : ℕ → ℕ → ℕ) (vjunk : ℕ → R) {A : Dns R} (h : A.WF) :
    Ok (dns2csr junk vjunk A) fun C => C.n = A.n ∧ C.np = A.np ∧ C.Rows A.nzRow := by
  have hvs := h.vsz
  have hlt : ∀ j i, j < A.np → i < A.n → j * A.n + i < A.value.size := fun j i hj hi =>
    lt_of_lt_of_le (flat_lt hj hi) hvs
  unfold dns2csr
  simp only [Ok_bind]
  refine Ok_loop_le (fun i (p : Arr ℕ) => p.size = A.n + 1 ∧ ∀ k, k < i → p.get (k + 1) = (A.nzRow k).length)
    (Nat.zero_le _) ⟨rfl, by simp⟩ ?_ ?_
  · rintro i p _ hi ⟨p1, p2⟩
    simp only [Ok_bind, Ok_wr]
    refine ⟨by omega, ?_⟩
    refine Ok_emit (em := fun j => if A.value.get (j * A.n + i) ≠ 0 then [(j, A.value.get (j * A.n + i))] else [])
      (fun E (q : Arr ℕ) => q.size = A.n + 1 ∧ q.get (i + 1) = E.length ∧ ∀ k, k < i → q.get (k + 1) = (A.nzRow k).length)
      (E := []) (Nat.zero_le _) ⟨by simpa, by simp, fun k hk => by rw [Arr.set_get_ne _ _ (by omega)]; exact p2 k hk⟩ ?_ ?_
    · rintro j q _ hj ⟨q1, q2, q3⟩ _
      have := hlt j i hj hi
      simp only [Ok_bind, Ok_rd]
      refine ⟨this, ?_⟩
      split
      · next hv =>
        simp only [Ok_bind, Ok_rd, Ok_wr]
        refine ⟨by omega, by omega, by simpa, by simp [q2], fun k hk => ?_⟩
        rw [Arr.set_get_ne _ _ (by omega)]; exact q3 k hk
      · rw [Ok_pure]
        exact ⟨q1, by simp [q2], q3⟩
    · rintro q ⟨q1, q2, q3⟩
      refine ⟨q1, fun k hk => ?_⟩
      by_cases hki : k = i
      · subst hki; rw [q2, emits_zero]; simp [Dns.nzRow]
      · exact q3 k (by omega)
  rintro p ⟨p1, p2⟩
  simp only [Ok_wr]
  refine ⟨by omega, ?_⟩
  refine Ok_accum (b := 0) (fun i => (A.nzRow i).length) (by simp)
    (fun i hi => by rw [Arr.set_get_ne _ _ (by omega)]; exact p2 i hi) ?_ ?_
  · intro i q hi hq
    simp only [Arr.set_size] at hq
    simp only [Ok_bind, Ok_rd, Ok_wr]
    exact ⟨by omega, by omega, by omega, trivial⟩
  intro ptr hp hpv
  simp only [Arr.set_size] at hp
  simp only [Nat.zero_add] at hpv
  have hpl : ∀ i, i ≤ A.n → ptr.get i = (concatRows i A.nzRow).length := fun i hi => by
    rw [hpv i hi, concatRows_length]
  simp only [Ok_rd]
  refine ⟨by omega, ?_⟩
  refine Ok_fillRows (cap := ptr.get A.n) (ptr := ptr) (L := A.nzRow) rfl rfl (hpl _ le_rfl).ge hpl ?_ ?_
  · rintro i ⟨ix, vl⟩ hi hP
    simp only [Ok_bind, Ok_rd]
    refine ⟨by omega, ?_⟩
    have e : concatRows i A.nzRow ++ emits 0 A.np (fun j => if A.value.get (j * A.n + i) ≠ 0 then
        [(j, A.value.get (j * A.n + i))] else []) = concatRows (i + 1) A.nzRow := by
      rw [concatRows_succ, emits_zero]; rfl
    refine Ok_pushLoop (Nat.zero_le _) hP (em := fun j => if A.value.get (j * A.n + i) ≠ 0 then
        [(j, A.value.get (j * A.n + i))] else []) ?_ ?_ ?_
    · rw [e, hpl _ le_rfl]
      exact (concatRows_prefix (n := i + 1) hi A.nzRow).length_le
    · rintro j k ix vl F _ hj hP hroom
      obtain ⟨g1, g2⟩ := hP.pushIf _ hroom
      simp only [Ok_bind, Ok_rd, Ok_ite, Ok_wr, Ok_pure]
      exact ⟨hlt j i hj hi, fun hc => ⟨(g1 hc).2.1, (g1 hc).1, (g1 hc).2.2⟩, g2⟩
    · rintro ⟨k, ix, vl⟩ hP
      rw [Ok_pure]
      rw [e] at hP
      exact ⟨k, hP⟩
  · rintro ⟨ix, vl⟩ ⟨_, g2, g3, g4⟩
    rw [Ok_pure]
    simp only at g2 g3 g4
    exact ⟨rfl, rfl, by simp only; omega, hpl, hpl _ le_rfl, g2.ge, g3.ge, g4⟩


/-! ### ELL -/

theorem ellMaxnzr_spec {A : Csr R} (h : A.WF) :
    Ok (ellMaxnzr A) fun m => ∀ i, i < A.n → (A.rowList i).length ≤ m := by
  have hps := h.ptr.size
  unfold ellMaxnzr
  refine Ok_loop_le (fun i m => ∀ k, k < i → (A.rowList k).length ≤ m) (Nat.zero_le _) (by simp) ?_ fun s h => h
  intro i m _ hi hm
  simp only [Ok_bind, Ok_rd, Ok_pure]
  refine ⟨by omega, by omega, fun k hk => ?_⟩
  by_cases hki : k = i
  · subst hki; rw [Csr.rowList_length]; split <;> omega
  · have := hm k (by omega); split <;> omega

/-- slot `k` of row `i` of the ELL form -/
def ellSlot [Zero R] (L : ℕ → List (ℕ × R)) (i k : ℕ) : ℕ × R := ((L i)[k]?).getD (i, 0)

theorem ellSlot_lt [Zero R] {L : ℕ → List (ℕ × R)} {i k : ℕ} (h : k < (L i).length) : ellSlot L i k = (L i)[k] := by
  simp [ellSlot, List.getElem?_eq_getElem h]

theorem ellSlot_ge [Zero R] {L : ℕ → List (ℕ × R)} {i k : ℕ} (h : (L i).length ≤ k) : ellSlot L i k = (i, 0) := by
  simp [ellSlot, List.getElem?_eq_none h]

theorem slot_inj {n j i j' i' : ℕ} (hi : i < n) (hi' : i' < n) (h : j * n + i = j' * n + i') : j = j' ∧ i = i' :=
  block_disj hi hi' h

theorem csr2ell_spec' [Zero R] (junk : ℕ → ℕ → ℕ) (vjunk : ℕ → R) {A : Csr R} (h : A.WF) :
    Ok (csr2ell junk vjunk A) fun B => B.n = A.n ∧ B.index.size = B.n * B.maxnzr ∧ B.value.size = B.n * B.maxnzr ∧
      (∀ i, i < A.n → (A.rowList i).length ≤ B.maxnzr) ∧
      ∀ i k, i < A.n → k < B.maxnzr →
        (B.index.get (k * A.n + i), B.value.get (k * A.n + i)) = ellSlot A.rowList i k := by
  have hps := h.ptr.size
  have his := h.isz
  have hvs := h.vsz
  have hlen : ∀ i, i < A.n → A.ptr.get (i + 1) = A.ptr.get i + (A.rowList i).length := fun i hi => by
    have := h.ptr.mono i hi
    simp only [Csr.rowList_length]; omega
  unfold csr2ell
  rw [Ok_bind]
  refine (ellMaxnzr_spec h).mono ?_
  intro m hm
  have hlt : ∀ k i, k < m → i < A.n → k * A.n + i < A.n * m := fun k i hk hi => by
    rw [Nat.mul_comm A.n]; exact flat_lt hk hi
  simp only [Ok_bind]
  refine Ok_loop_le (fun j (s : Arr ℕ × Arr R) => s.1.size = A.n * m ∧ s.2.size = A.n * m ∧
    ∀ i k, i < A.n → k < j → (s.1.get (k * A.n + i), s.2.get (k * A.n + i)) = (i, 0))
    (Nat.zero_le _) ⟨rfl, rfl, by simp⟩ ?_ ?_
  · rintro j s _ hj hs
    refine Ok_loop_le (fun i (s : Arr ℕ × Arr R) => s.1.size = A.n * m ∧ s.2.size = A.n * m ∧
      ∀ i' k, i' < A.n → k < j + 1 → (k = j → i' < i) → (s.1.get (k * A.n + i'), s.2.get (k * A.n + i')) = (i', 0))
      (Nat.zero_le _) ⟨hs.1, hs.2.1, fun i k hi hk hkj => hs.2.2 i k hi (by omega)⟩ ?_ ?_
    · rintro i ⟨ix, vl⟩ _ hi ⟨g1, g2, g3⟩
      simp only at g1 g2 g3
      have := hlt j i hj hi
      simp only [Ok_bind, Ok_wr, Ok_pure]
      refine ⟨by omega, by omega, by simpa, by simpa, fun i' k hi' hk hkj => ?_⟩
      simp only [Arr.set_get]
      by_cases he : k * A.n + i' = j * A.n + i
      · obtain ⟨e1, e2⟩ := slot_inj hi' hi he
        subst e1 e2
        simp
      · simp only [he, if_false]
        refine g3 i' k hi' hk fun hk' => ?_
        have := hkj hk'
        by_contra hcon
        exact he (by rw [hk', show i' = i by omega])
    · rintro s ⟨g1, g2, g3⟩
      exact ⟨g1, g2, fun i k hi hk => g3 i k hi hk fun _ => hi⟩
  rintro s ⟨z1, z2, z3⟩
  refine Ok_loop_le (fun i (s : Arr ℕ × Arr R) => s.1.size = A.n * m ∧ s.2.size = A.n * m ∧
    ∀ i' k, i' < A.n → k < m → (s.1.get (k * A.n + i'), s.2.get (k * A.n + i')) =
      if i' < i then ellSlot A.rowList i' k else (i', 0))
    (Nat.zero_le _) ⟨z1, z2, by simpa using z3⟩ ?_ ?_
  · rintro i ⟨ix, vl⟩ _ hi ⟨g1, g2, g3⟩
    simp only at g1 g2 g3
    simp only [Ok_bind, Ok_rd]
    refine ⟨by omega, by omega, ?_⟩
    refine Ok_loop_le (fun j (s : ℕ × Arr ℕ × Arr R) => A.ptr.get i + s.1 = j ∧ s.2.1.size = A.n * m ∧ s.2.2.size = A.n * m ∧
      ∀ i' k, i' < A.n → k < m → (s.2.1.get (k * A.n + i'), s.2.2.get (k * A.n + i')) =
        if i' < i ∨ (i' = i ∧ k < s.1) then ellSlot A.rowList i' k else (i', 0))
      (h.ptr.mono i hi) ⟨rfl, g1, g2, by simpa using g3⟩ ?_ ?_
    · rintro j ⟨k, ix, vl⟩ hj1 hj2 ⟨f1, f2, f3, f4⟩
      simp only at f1 f2 f3 f4
      have hjn := h.ptr.lt_nnz hi hj2
      have hk : k < (A.rowList i).length := by rw [Csr.rowList_length]; omega
      have := hlt k i (lt_of_lt_of_le hk (hm i hi)) hi
      simp only [Ok_bind, Ok_rd, Ok_wr, Ok_pure]
      refine ⟨by omega, by omega, by omega, by omega, by omega, by simpa, by simpa, fun i' k' hi' hk' => ?_⟩
      simp only [Arr.set_get]
      by_cases he : k' * A.n + i' = k * A.n + i
      · obtain ⟨e1, e2⟩ := slot_inj hi' hi he
        subst e1 e2
        simp only [if_true]
        rw [if_pos (Or.inr ⟨trivial, Nat.lt_succ_self _⟩), ellSlot_lt hk]
        simp [Csr.rowList, f1]
      · simp only [he, if_false]
        rw [f4 i' k' hi' hk']
        by_cases hc : i' < i ∨ i' = i ∧ k' < k
        · rw [if_pos hc, if_pos (by omega)]
        · rw [if_neg hc, if_neg]
          intro hc'
          apply he
          rw [show i' = i by omega, show k' = k by omega]
    · rintro ⟨k, ix, vl⟩ ⟨f1, f2, f3, f4⟩
      simp only at f1 f2 f3 f4
      rw [Ok_pure]
      refine ⟨f2, f3, fun i' k' hi' hk' => ?_⟩
      simp only
      rw [f4 i' k' hi' hk']
      have hkl : k = (A.rowList i).length := by rw [Csr.rowList_length]; omega
      by_cases hlt' : i' < i
      · rw [if_pos (by omega), if_pos (by omega)]
      · by_cases hii : i' = i
        · subst hii
          by_cases hkk : k' < k
          · rw [if_pos (by omega), if_pos (by omega)]
          · rw [if_neg (by omega), if_pos (by omega), ellSlot_ge (by omega)]
        · rw [if_neg (by omega), if_neg (by omega)]
  · rintro ⟨ix, vl⟩ ⟨g1, g2, g3⟩
    rw [Ok_pure]
    refine ⟨rfl, g1, g2, hm, fun i k hi hk => ?_⟩
    have := g3 i k hi hk
    rw [if_pos hi] at this
    exact this

theorem ellSlot_sum [AddCommMonoid R] {L : ℕ → List (ℕ × R)} {i m : ℕ} (h : (L i).length ≤ m) (j : ℕ) :
    (∑ k ∈ range m, if (ellSlot L i k).1 = j then (ellSlot L i k).2 else 0) =
      ((L i).map fun e => if e.1 = j then e.2 else 0).sum := by
  rw [← sum_Ico_list (L i) (fun e => if e.1 = j then e.2 else 0)
    (fun k => if (ellSlot L i k).1 = j then (ellSlot L i k).2 else 0) 0 (L i).length (by simp)
    (fun q hq => by rw [Nat.zero_add, ellSlot_lt hq])]
  rw [range_eq_Ico, ← sum_Ico_consecutive _ (Nat.zero_le (L i).length) h]
  rw [sum_eq_zero (s := Ico (L i).length m), add_zero]
  intro k hk
  rw [ellSlot_ge (by simp at hk; omega)]; simp

/-- keyed (row; column, value) list of the nonzero slots, in the order of the loops -/
def Ell.nzList [Zero R] [DecidableEq R] (A : Ell R) : List (ℕ × ℕ × R) :=
  concatRows A.maxnzr fun j => concatRows A.n fun i =>
    if A.value.get (j * A.n + i) ≠ 0 then [(i, (A.index.get (j * A.n + i), A.value.get (j * A.n + i)))] else []

theorem ell2csr_spec' [Zero R] [DecidableEq R] (junk : ℕ → ℕ → ℕ) (vjunk : ℕ → R) {A : Ell R} (h : A.WF) :
    Ok (ell2csr junk vjunk A) fun C => C.n = A.n ∧ C.np = A.n ∧
      (⟨A.n, A.n, C.nnz, C.ptr, C.index, C.value⟩ : Csc R).Cols A.nzList := by
  have his := h.isz
  have hvs := h.vsz
  have hlt : ∀ j i, j < A.maxnzr → i < A.n → j * A.n + i < A.n * A.maxnzr := fun k i hk hi => by
    rw [Nat.mul_comm A.n]; exact flat_lt hk hi
  obtain ⟨em, hem⟩ : ∃ em : ℕ → ℕ → List (ℕ × ℕ × R), em = fun j i =>
    if A.value.get (j * A.n + i) ≠ 0 then [(i, (A.index.get (j * A.n + i), A.value.get (j * A.n + i)))] else [] := ⟨_, rfl⟩
  have hnz : A.nzList = emits 0 A.maxnzr fun j => emits 0 A.n (em j) := by
    simp only [emits_zero, hem]; rfl
  unfold ell2csr
  simp only [Ok_bind]
  refine Ok_fillConst (by simp) fun iw0 hiw0 hiz => ?_
  simp only [Arr.malloc_size] at hiw0
  refine Ok_emit (em := fun j => emits 0 A.n (em j))
    (fun pre iw => Counted A.n 0 pre iw ∧ iw.size = A.n) (E := []) (Nat.zero_le _)
    ⟨⟨by omega, fun c hc => by simpa using hiz c (by omega)⟩, hiw0⟩ ?_ ?_
  · rintro j iw _ hj hc _
    refine Ok_emit (fun pre iw => Counted A.n 0 pre iw ∧ iw.size = A.n) (Nat.zero_le _) hc ?_ fun s h => h
    rintro i iw _ hi ⟨hc, hsz⟩ _
    have h1 := hlt j i hj hi
    simp only [Ok_bind, Ok_rd, Ok_ite, Ok_wr, Ok_pure]
    refine ⟨by omega, fun hv => ?_, fun hv => ?_⟩
    · have hee : em j i = [(i, (A.index.get (j * A.n + i), A.value.get (j * A.n + i)))] := by
        rw [hem]; exact if_pos hv
      rw [hee]
      have hst := hc.step (e := (i, (A.index.get (j * A.n + i), A.value.get (j * A.n + i)))) hi
      exact ⟨by omega, by omega, hst.2, by simpa⟩
    · have hee : em j i = [] := by rw [hem]; exact if_neg hv
      rw [hee, List.append_nil]; exact ⟨hc, hsz⟩
  rintro iw ⟨hc, hiw⟩
  rw [List.nil_append, ← hnz] at hc
  refine Ok_fillConst (by simp) fun p0 hp0 hpz => ?_
  simp only [Arr.malloc_size] at hp0
  refine Ok_prefix (fun i => iw.get i) ?_ ?_
  · intro i p hi hp
    simp only [Ok_bind, Ok_rd, Ok_wr]
    exact ⟨by omega, by omega, by omega, trivial⟩
  intro ptr hp hpv
  rw [hpz 0 (by omega)] at hpv
  simp only [Nat.zero_add] at hpv
  have hsegs : Segs A.n ptr.get A.nzList := ⟨fun c hc' => by
    rw [hpv (c + 1) (by omega), hpv c (by omega), sum_range_succ]
    have := hc.cnt c hc'
    rw [Nat.add_zero] at this
    rw [this]⟩
  have hp0' : ptr.get 0 = 0 := by rw [hpv 0 (by omega)]; simp
  refine Ok_loop_le (fun i (w : Arr ℕ) => w.size = A.n ∧ ∀ c, c < i → w.get c = ptr.get c) (Nat.zero_le _)
    ⟨hiw, by simp⟩ ?_ ?_
  · rintro i w _ hi ⟨w1, w2⟩
    simp only [Ok_bind, Ok_rd, Ok_wr]
    refine ⟨by omega, by omega, by simpa, fun c hc => ?_⟩
    rw [Arr.set_get]
    split
    · next hh => rw [hh]
    · exact w2 c (by omega)
  rintro w ⟨w1, w2⟩
  simp only [Ok_rd]
  refine ⟨by omega, ?_⟩
  refine Ok_emit (em := fun j => emits 0 A.n (em j))
    (fun pre (s : Arr ℕ × Arr ℕ × Arr R) => s.1.size = A.n ∧ s.2.1.size = ptr.get A.n ∧ s.2.2.size = ptr.get A.n ∧
      Scat A.n ptr.get pre s.1.get fun q => (s.2.1.get q, s.2.2.get q)) (E := []) (Nat.zero_le _)
    ⟨w1, rfl, rfl, Scat.nil w2⟩ ?_ ?_
  · rintro j s _ hj hc hpre
    rw [List.nil_append (emits 0 A.maxnzr _), ← hnz] at hpre
    refine Ok_emit (fun pre (s : Arr ℕ × Arr ℕ × Arr R) => s.1.size = A.n ∧ s.2.1.size = ptr.get A.n ∧ s.2.2.size = ptr.get A.n ∧
      Scat A.n ptr.get pre s.1.get fun q => (s.2.1.get q, s.2.2.get q)) (Nat.zero_le _) hc ?_ fun s h => h
    rintro i ⟨iw, ix, vl⟩ _ hi ⟨s1, s2, s3, hS⟩ hpre'
    simp only at s1 s2 s3 hS
    have h1 := hlt j i hj hi
    simp only [Ok_bind, Ok_rd, Ok_ite, Ok_wr, Ok_pure]
    refine ⟨by omega, fun hv => ?_, fun hv => ?_⟩
    · have hp3 := hpre'.trans hpre
      have hee : em j i = [(i, (A.index.get (j * A.n + i), A.value.get (j * A.n + i)))] := by
        rw [hem]; exact if_pos hv
      rw [hee] at hp3 ⊢
      have hl := hS.lt_end hsegs hp3 hi
      have hst := hS.put_arr hsegs hp3 hi
      simp only at hl
      exact ⟨by omega, by omega, by omega, by omega, by omega, by simpa, by simpa, by simpa, hst⟩
    · have hee : em j i = [] := by rw [hem]; exact if_neg hv
      rw [hee, List.append_nil]; exact ⟨s1, s2, s3, hS⟩
  · rintro ⟨iw, ix, vl⟩ ⟨s1, s2, s3, hS⟩
    rw [List.nil_append, ← hnz] at hS
    rw [Ok_pure]
    simp only at s2 s3
    exact ⟨rfl, rfl, by simp only; omega, hp0', hsegs, rfl, by simp only; omega, by simp only; omega, _, hS⟩

end Lis
