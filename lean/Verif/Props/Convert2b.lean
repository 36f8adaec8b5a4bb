import Verif.Lemmas.Convert2d
import Verif.Props.Convert2
import Mathlib.Tactic.IntervalCases

/-!
# C08/C09: conversions CSR → DIA, JAD, round trips, and where the code departs from the property
-/

namespace Lis
open Finset
variable {R : Type}

/-- **C08 (CSR → DIA).** The matrix must have at least one element and no duplicates.  The function sorts the rows of
its input in place, which keeps the matrix. -/
theorem csr2dia_spec [AddCommMonoid R] (junk : ℕ → ℕ → ℤ) (vjunk : ℕ → R) (A : Csr R) (h : A.WF) (hd : A.NoDup)
    (h0 : 0 < A.nnz) :
    Ok (csr2dia junk vjunk A) fun r =>
      (r.2.WF ∧ r.2.n = A.n ∧ ∀ i j, i < A.n → r.2.entry i j = A.entry i j) ∧
      (r.1.WF ∧ r.1.n = A.n ∧ r.1.np = A.np ∧ ∀ i j, i < A.n → r.1.entry i j = A.entry i j) :=
  (csr2dia_spec' junk vjunk h hd h0).mono fun _ ⟨w, _, _, n1, n2, e, w', n3, _, e'⟩ => ⟨⟨w', n3, e'⟩, w, n1, n2, e⟩

/-- the diagonals of the result are in ascending order, without repetition -/
theorem csr2dia_ascending [AddCommMonoid R] (junk : ℕ → ℕ → ℤ) (vjunk : ℕ → R) (A : Csr R) (h : A.WF) (hd : A.NoDup)
    (h0 : 0 < A.nnz) :
    Ok (csr2dia junk vjunk A) fun r => ∀ a b, a < b → b < r.2.nnd → r.2.index.get a < r.2.index.get b :=
  (csr2dia_spec' junk vjunk h hd h0).mono fun _ h => h.2.2.2.2.2.2.2.2.1

/-- **C08 (CSR → JAD).** With or without duplicates. -/
theorem csr2jad_spec [AddCommMonoid R] (junk : ℕ → ℕ → ℕ) (vjunk : ℕ → R) (A : Csr R) (h : A.WF) :
    Ok (csr2jad junk vjunk A) fun J => J.WF ∧ J.n = A.n ∧ J.np = A.np ∧ J.nnz = A.nnz ∧
      ∀ i j, i < A.n → J.entry i j = A.entry i j := by
  refine (csr2jad_spec' junk vjunk h).mono ?_
  rintro J ⟨n1, n2, n3, r1, i1, v1, hp, hl, r2, r3, hle, hiff, hel⟩
  have hidx : ∀ q, q < A.nnz → J.index.get q < A.np := by
    intro q hq
    obtain ⟨d, hd, q1, q2⟩ := hp.locate hq
    have hk : q - J.ptr.get d < A.n := by have := hle d hd; omega
    have hdl := (hiff _ hk d hd).2 (by omega)
    have := (hel _ hk d hdl).1
    rw [show J.ptr.get d + (q - J.ptr.get d) = q by omega] at this
    rw [this]
    unfold Csr.len at hdl
    exact h.idx _ (h.ptr.lt_nnz (r2 _ hk) (by omega))
  refine ⟨⟨by rw [n3]; exact hp, by rw [n1]; exact hle, by omega, by rw [n1]; exact r2, by rw [n1]; exact r3, by omega, by omega,
    by rw [n2, n3]; exact hidx⟩, n1, n2, n3, fun i j hi => ?_⟩
  -- the position of row `i` in the permutation
  obtain ⟨k0, hk0, hk0i⟩ : ∃ k, k < A.n ∧ J.row.get k = i := by
    have hinj : Set.InjOn J.row.get (range A.n : Set ℕ) := fun a ha b hb hab =>
      r3 a b (by simpa using ha) (by simpa using hb) hab
    have himg : (range A.n).image J.row.get = range A.n := by
      refine eq_of_subset_of_card_le ?_ (by rw [card_image_of_injOn hinj])
      intro x hx
      obtain ⟨k, hk, rfl⟩ := mem_image.1 hx
      exact mem_range.2 (r2 k (mem_range.1 hk))
    have : i ∈ (range A.n).image J.row.get := by rw [himg]; exact mem_range.2 hi
    obtain ⟨k, hk, hki⟩ := mem_image.1 this
    exact ⟨k, mem_range.1 hk, hki⟩
  unfold Jad.entry
  have hin : ∀ d, d < J.maxnzr → (∑ k ∈ range (J.ptr.get (d + 1) - J.ptr.get d),
      if J.row.get k = i ∧ J.index.get (J.ptr.get d + k) = j then J.value.get (J.ptr.get d + k) else 0) =
      if d < A.len i then (if A.index.get (A.ptr.get i + d) = j then A.value.get (A.ptr.get i + d) else 0) else 0 := by
    intro d hd
    have hiff0 := hiff k0 hk0 d hd
    rw [hk0i] at hiff0
    by_cases hdl : d < A.len i
    · rw [if_pos hdl, sum_eq_single k0]
      · have := hel k0 hk0 d (by rw [hk0i]; exact hdl)
        rw [hk0i] at this
        rw [this.1, this.2]
        exact if_congr (by simp [hk0i]) rfl rfl
      · intro k hk hne
        rw [mem_range] at hk
        have := hle d hd
        exact if_neg fun hc => hne (r3 k k0 (by omega) hk0 (by rw [hc.1, hk0i]))
      · intro hn
        exact absurd (mem_range.2 (hiff0.1 hdl)) hn
    · rw [if_neg hdl]
      refine sum_eq_zero fun k hk => if_neg fun hc => hdl ?_
      rw [mem_range] at hk
      have := hle d hd
      have hkk : k = k0 := r3 k k0 (by omega) hk0 (by rw [hc.1, hk0i])
      exact hiff0.2 (hkk ▸ hk)
  rw [sum_congr rfl fun d hd => hin d (mem_range.1 hd)]
  have hli := hl i hi
  rw [← sum_filter, show (range J.maxnzr).filter (fun d => d < A.len i) = range (A.len i) by
    ext d; simp only [mem_filter, mem_range]; omega]
  unfold Csr.entry Csr.len
  rw [sum_Ico_eq_sum_range]

/-! ### round trips -/

/-- **C09 (CSR → JAD → CSR).** -/
theorem csr_jad_csr [AddCommMonoid R] (junk junk' : ℕ → ℕ → ℕ) (vjunk vjunk' : ℕ → R) (A : Csr R) (h : A.WF) :
    Ok (csr2jad junk vjunk A >>= jad2csr junk' vjunk') fun C => C.WF ∧ C.n = A.n ∧ C.np = A.np ∧ C.nnz = A.nnz ∧
      ∀ i j, i < A.n → C.entry i j = A.entry i j := by
  rw [Ok_bind]
  refine (csr2jad_spec junk vjunk A h).mono ?_
  rintro J ⟨w, n1, n2, n3, e⟩
  refine (jad2csr_spec junk' vjunk' J w).mono ?_
  rintro C ⟨w', m1, m2, m3, e'⟩
  exact ⟨w', by omega, by omega, by omega, fun i j hi => by rw [e' i j (by omega), e i j hi]⟩

/-- **C09 (CSR → DIA → CSR).** -/
theorem csr_dia_csr [AddCommMonoid R] [DecidableEq R] (junk : ℕ → ℕ → ℤ) (junk' : ℕ → ℕ → ℕ) (vjunk vjunk' : ℕ → R)
    (A : Csr R) (h : A.WF) (hd : A.NoDup) (h0 : 0 < A.nnz) :
    Ok (csr2dia junk vjunk A >>= fun r => dia2csr junk' vjunk' r.2) fun C => C.WF ∧ C.n = A.n ∧ C.np = A.n ∧
      ∀ i j, i < A.n → j < A.n → C.entry i j = A.entry i j := by
  rw [Ok_bind]
  refine (csr2dia_spec junk vjunk A h hd h0).mono ?_
  rintro ⟨B, D⟩ ⟨⟨w, n1, e⟩, -⟩
  simp only at w n1 e
  refine (dia2csr_spec junk' vjunk' D w).mono ?_
  rintro C ⟨w', m1, m2, e'⟩
  exact ⟨w', by omega, by omega, fun i j hi hj => by rw [e' i j (by omega) (by omega), e i j hi]⟩

/-! ### not vacuous -/

/-- 3×3, unsorted, with position (2,0) stored twice -/
def exCoo3 : Coo ℤ := ⟨3, 4, Arr.ofList [2, 0, 2, 1], Arr.ofList [0, 1, 0, 2], Arr.ofList [5, 6, 7, 8]⟩

theorem exCoo3_wf : exCoo3.WF := ⟨by decide, by decide, by decide, by decide, by decide⟩

example : Ok (coo2csr (fun _ _ => 7) (fun _ => 9) exCoo3) fun r => r.2.entry 2 0 = 12 :=
  (coo2csr_spec _ _ _ exCoo3_wf).mono fun _ h => (h.2.2.2.2.1 2 0 (by decide)).trans (by decide)

/-- 3×3 with offsets 1, -2 and the wholly external 5 -/
def exDia3 : Dia ℤ := ⟨3, 3, Arr.ofList [1, -2, 5], Arr.ofList [1, 2, 0, 0, 0, 3, 4, 4, 4]⟩

theorem exDia3_wf : exDia3.WF := ⟨by decide, by decide⟩

example : (dia2csr (fun _ _ => 7) (fun _ => 9) exDia3).map (fun C => (C.nnz, C.ptr.toList, C.index.toList, C.value.toList)) =
    some (3, [0, 1, 2, 3], [1, 2, 0], [1, 2, 3]) := by decide

/-- rows of lengths 1, 2, 0 -/
def exJad3 : Jad ℤ := ⟨3, 3, 3, 2, Arr.ofList [1, 0, 2], Arr.ofList [0, 2, 3], Arr.ofList [0, 2, 1], Arr.ofList [5, 6, 7]⟩

theorem exJad3_wf : exJad3.WF :=
  ⟨⟨by decide, by decide, by decide, by decide⟩, by decide, by decide, by decide, by
    intro k l hk hl
    change k < 3 at hk
    change l < 3 at hl
    interval_cases k <;> interval_cases l <;> decide, by decide, by decide, by decide⟩

example : (jad2csr (fun _ _ => 7) (fun _ => 9) exJad3).map (fun C => (C.nnz, C.ptr.toList, C.index.toList, C.value.toList)) =
    some (3, [0, 1, 3, 3], [2, 0, 1], [6, 5, 7]) := by decide

example : Ok (csr2dia (fun _ _ => 7) (fun _ => 9) exCsr5) fun r => r.2.entry 4 3 = exCsr5.entry 4 3 :=
  (csr2dia_spec _ _ _ exCsr5_wf exCsr5_nodup (by decide)).mono fun _ h => h.1.2.2 4 3 (by decide)

example : Ok (csr2jad (fun _ _ => 7) (fun _ => 9) exCsr5) fun J => J.entry 4 3 = exCsr5.entry 4 3 :=
  (csr2jad_spec _ _ _ exCsr5_wf).mono fun _ h => h.2.2.2.2 4 3 (by decide)

/-- the BSR form of `exCsr5` with 2×3 blocks satisfies the hypotheses of `bsr2csr_spec` -/
example : Ok (csr2bsr 2 3 (fun _ _ => 7) (fun _ => 7) exCsr5) fun B => B.WF ∧ B.Padded ∧ B.bnnz = 5 :=
  ((csr2bsr_spec _ _ exCsr5 2 3 (by decide) (by decide) exCsr5_wf exCsr5_nodup rfl).conj
    ((csr2bsr_padded _ _ exCsr5 2 3 (by decide) (by decide) exCsr5_wf rfl).conj ⟨_, rfl, by decide⟩)).mono
    fun _ h => ⟨h.1.1, h.2.1, h.2.2⟩

example : Ok (csc2bsc 2 2 (fun _ _ => 7) (fun _ => 7) exCsc5 >>= bsc2csr (fun _ _ => 7) (fun _ => 9)) fun C =>
    C.entry 1 3 = exCsc5.entry 1 3 := by
  rw [Ok_bind]
  refine ((csc2bsc_spec _ _ exCsc5 2 (by decide) ⟨exCsr5_wf.ptr, exCsr5_wf.isz, exCsr5_wf.vsz, exCsr5_wf.idx⟩ exCsr5_nodup rfl).conj
    (csc2bsc_padded _ _ exCsc5 2 (by decide) ⟨exCsr5_wf.ptr, exCsr5_wf.isz, exCsr5_wf.vsz, exCsr5_wf.idx⟩ rfl)).mono ?_
  rintro B ⟨⟨w, n, -, -, e⟩, hz⟩
  have hn : B.n = 5 := n
  refine (bsc2csr_spec _ _ B w hz).mono fun C h => ?_
  rw [h.2.2.2 1 3 (by omega) (by omega), e 1 3 (by decide)]

/-! ### where the code departs from the property -/

/-- **C08, negative.** For every matrix without elements lis_matrix_convert_csr2dia reads `iw[0]` of an array of
size 0 (src/matrix/lis_matrix_dia.c:1230). -/
theorem csr2dia_empty [Zero R] (junk : ℕ → ℕ → ℤ) (vjunk : ℕ → R) (A : Csr R) (h : A.WF) (h0 : A.nnz = 0) :
    csr2dia junk vjunk A = none := by
  unfold csr2dia
  obtain ⟨B, hB, hn, -, hz, hp, -⟩ := sortCsr_perm h
  have hps := h.ptr.size
  have hpz : ∀ i, i ≤ A.n → A.ptr.get i = 0 := fun i hi => by have := h.ptr.le_nnz (i := i) hi; omega
  have h1 : Ok (loop 0 B.n (Arr.malloc A.nnz (junk 0)) fun i iw => do
      let a ← B.ptr.rd i
      let b ← B.ptr.rd (i + 1)
      loop a b iw fun j (iw : Arr ℤ) => do
        let c ← B.index.rd j
        iw.wr j ((c : ℤ) - i)) fun iw => iw.size = 0 := by
    refine Ok_loop_le (fun _ (iw : Arr ℤ) => iw.size = 0) (Nat.zero_le _) h0 ?_ fun _ h => h
    intro i iw _ hi hiw
    rw [hp]
    simp only [Ok_bind, Ok_rd]
    refine ⟨by omega, by omega, ?_⟩
    rw [hpz i (by omega), hpz (i + 1) (by omega), loop_empty le_rfl, Ok_some]
    exact hiw
  obtain ⟨iw, e1, hiw⟩ := h1
  obtain ⟨w, e2, g, -, ⟨hw, -⟩, -⟩ := lisSortI_spec 0 ((B.nnz : ℤ) - 1) iw (by omega) (by omega)
  have e3 : diaCount w B.nnz = none := by
    unfold diaCount
    rw [show w.rd 0 = none by unfold Arr.rd; rw [if_neg (by omega)]]
    rfl
  simp only [hB, Option.bind_eq_bind, Option.bind_some] at e1 ⊢
  rw [e1]
  simp only [Option.bind_some, e2, e3, Option.bind_none]

example : (⟨2, 2, 0, Arr.ofList [0, 0, 0], Arr.ofList [], Arr.ofList []⟩ : Csr ℤ).WF :=
  ⟨⟨by decide, by decide, by decide, by decide⟩, by decide, by decide, by decide⟩

/-- **C09, negative.** A nonzero in the padding of a BSR matrix (1×1 with one 2×2 block): lis_matrix_convert_bsr2csr
counts it in `ptr[2]`, outside the array of size 2 (src/matrix/lis_matrix_bsr.c:588-606). -/
theorem bsr2csr_padding_oob :
    let A : Bsr ℤ := ⟨1, 1, 1, 2, 2, 1, Arr.ofList [0, 1], Arr.ofList [0], Arr.ofList [5, 6, 0, 0]⟩
    A.WF ∧ bsr2csr (fun _ _ => 7) (fun _ => 9) A = none :=
  ⟨⟨⟨by decide, by decide, by decide, by decide⟩, by decide, by decide, by decide, by decide, by decide, by decide⟩, by decide⟩

/-- **C09, negative.** A nonzero in the column padding of a BSR matrix becomes a CSR element with a column number
outside the matrix. -/
theorem bsr2csr_padding_column :
    let A : Bsr ℤ := ⟨1, 1, 1, 1, 2, 1, Arr.ofList [0, 1], Arr.ofList [0], Arr.ofList [5, 6]⟩
    A.WF ∧ ∃ C, bsr2csr (fun _ _ => 7) (fun _ => 9) A = some C ∧ C.n = 1 ∧ C.index.toList = [0, 1] :=
  ⟨⟨⟨by decide, by decide, by decide, by decide⟩, by decide, by decide, by decide, by decide, by decide, by decide⟩,
    _, rfl, by decide, by decide⟩

end Lis
