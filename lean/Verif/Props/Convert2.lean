import Verif.Lemmas.Convert2b
import Verif.Props.Convert1

/-!
# C08/C09: conversions COO, DIA, JAD → CSR (and back, `Convert2b`)

"Same matrix" is equality of `entry i j` as defined in `Spec/Formats*.lean`.
-/

namespace Lis
open Finset
variable {R : Type}

/-- **C09 (COO → CSR).** The result is well formed and holds the same matrix, for every order of the elements and
with or without duplicates; the input matrix, whose elements the function reorders, still holds the same matrix. -/
theorem coo2csr_spec [AddCommMonoid R] (junk : ℕ → ℕ → ℕ) (vjunk : ℕ → R) (A : Coo R) (h : A.WF) :
    Ok (coo2csr junk vjunk A) fun r => r.2.WF ∧ r.2.n = A.n ∧ r.2.np = A.n ∧ r.2.nnz = A.nnz ∧
      (∀ i j, i < A.n → r.2.entry i j = A.entry i j) ∧
      r.1.WF ∧ r.1.n = A.n ∧ r.1.nnz = A.nnz ∧ ∀ i j, r.1.entry i j = A.entry i j := by
  refine (coo2csr_spec' junk vjunk h).mono ?_
  rintro ⟨B, C⟩ ⟨g, g1, b1, b2, c1, c2, c3, r1, r2, r3, p1, p2, p3, p4, p5, x1, x2, x3⟩
  simp only at b1 b2 c1 c2 c3 r1 r2 r3 p1 p2 p3 p4 p5 x1 x2 x3
  obtain ⟨hw, hin⟩ := h.rearranged (s := (B.row, B.col, B.value)) g1 r1 r2 r3
  have hB : (⟨A.n, A.nnz, B.row, B.col, B.value⟩ : Coo R) = B := by
    cases B; simp only at b1 b2; subst b1 b2; rfl
  have he := Coo.entry_rearranged (s := (B.row, B.col, B.value)) hin g1 r1 r2 r3
  simp only [hB] at hw he
  have hp : PtrWF A.n A.nnz C.ptr := ⟨p1, p2, p4, p3⟩
  refine ⟨⟨by rw [c1, c3]; exact hp, by rw [c3]; exact x1.ge, by rw [c3]; exact x2.ge, fun k hk => ?_⟩, c1, c2, c3,
    fun i j hi => ?_, hw, b1, b2, he⟩
  · rw [c3] at hk
    show C.index.get k < C.np
    rw [c2, (x3 k hk).1, ← b1]; exact hw.col k (by rw [b2]; exact hk)
  · show C.entry i j = A.entry i j
    rw [← he i j]
    unfold Csr.entry Coo.entry
    have hle := hp.le_nnz (i := i + 1) hi
    rw [b2, range_eq_Ico]
    refine Eq.trans ?_ (sum_subset (s₁ := Ico (C.ptr.get i) (C.ptr.get (i + 1))) (s₂ := Ico 0 A.nnz) ?_ ?_)
    · refine sum_congr rfl fun k hk => ?_
      rw [mem_Ico] at hk
      have hk' : k < A.nnz := by omega
      rw [(x3 k hk').1, (x3 k hk').2, (p5 i hi k hk').1 hk]
      simp
    · intro k hk; rw [mem_Ico] at hk ⊢; omega
    · intro k hk hn
      rw [mem_Ico] at hk hn
      rw [if_neg]
      rintro ⟨e, -⟩
      exact hn ((p5 i hi k hk.2).2 e)

/-- **C09 (DIA → CSR).** Diagonals may come in any order, may be repeated and may lie partly or wholly outside the
matrix; the result holds the entries inside it. -/
theorem dia2csr_spec [AddCommMonoid R] [DecidableEq R] (junk : ℕ → ℕ → ℕ) (vjunk : ℕ → R) (A : Dia R) (h : A.WF) :
    Ok (dia2csr junk vjunk A) fun C => C.WF ∧ C.n = A.n ∧ C.np = A.n ∧
      ∀ i j, i < A.n → j < A.n → C.entry i j = A.entry i j := by
  refine (dia2csr_spec' junk vjunk h).mono ?_
  rintro C ⟨c1, c2, hC⟩
  rw [← c1] at hC
  nth_rw 1 [c1, ← c2] at hC
  obtain ⟨hw, he⟩ := Csr.of_cols hC fun e he => by
    unfold Dia.nzList at he
    obtain ⟨d, _, hd, he⟩ := emits_mem.1 he
    obtain ⟨i, hi1, hi2, he⟩ := emits_mem.1 he
    simp only [diaRange] at hi1 hi2
    split at he
    · rw [List.mem_singleton] at he; subst he; simp only; omega
    · simp at he
  refine ⟨hw, c1, c2, fun i j hi hj => ?_⟩
  rw [he i j (by omega)]
  unfold Dia.nzList Dia.entry
  rw [emits_sum, range_eq_Ico]
  refine sum_congr rfl fun d _ => ?_
  rw [emits_sum]
  have hone : ∀ k, ((if A.value.get (d * A.n + k) ≠ 0 then
      [(k, (((k : ℤ) + A.index.get d).toNat, A.value.get (d * A.n + k)))] else []).map fun e : ℕ × ℕ × R =>
        if e.1 = i then (if e.2.1 = j then e.2.2 else 0) else 0).sum =
      if k = i then (if ((k : ℤ) + A.index.get d).toNat = j then A.value.get (d * A.n + k) else 0) else 0 := by
    intro k
    by_cases hv : A.value.get (d * A.n + k) = 0
    · simp [hv]
    · simp [hv]
  simp only [hone]
  rw [sum_ite_eq']
  simp only [mem_Ico, diaRange]
  by_cases hd : A.index.get d = (j : ℤ) - i
  · rw [if_pos hd, if_pos (by omega), if_pos (by omega)]
  · rw [if_neg hd]
    split
    · rw [if_neg (by omega)]
    · rfl

/-- **C09 (JAD → CSR).** -/
theorem jad2csr_spec [AddCommMonoid R] (junk : ℕ → ℕ → ℕ) (vjunk : ℕ → R) (A : Jad R) (h : A.WF) :
    Ok (jad2csr junk vjunk A) fun C => C.WF ∧ C.n = A.n ∧ C.np = A.np ∧ C.nnz = A.nnz ∧
      ∀ i j, i < A.n → C.entry i j = A.entry i j := by
  refine (jad2csr_spec' junk vjunk h).mono ?_
  rintro C ⟨c1, c2, c3, hC⟩
  rw [← c1, ← c2] at hC
  obtain ⟨hw, he⟩ := Csr.of_cols hC fun e he => by
    unfold Jad.elems at he
    obtain ⟨d, _, hd, he⟩ := emits_mem.1 he
    obtain ⟨q, hq1, hq2, he⟩ := emits_mem.1 he
    rw [List.mem_singleton] at he; subst he
    rw [c2]
    exact h.idx q (h.ptr.lt_nnz hd hq2)
  refine ⟨hw, c1, c2, c3, fun i j hi => ?_⟩
  rw [he i j (by omega)]
  unfold Jad.elems Jad.entry
  rw [emits_sum, range_eq_Ico]
  refine sum_congr rfl fun d _ => ?_
  rw [emits_sum, sum_Ico_eq_sum_range]
  refine sum_congr rfl fun k _ => ?_
  rw [show A.ptr.get d + k - A.ptr.get d = k by omega]
  simp only [List.map_cons, List.map_nil, List.sum_cons, List.sum_nil, add_zero]
  by_cases h1 : A.row.get k = i <;> simp [h1]

/-! ### BSR, BSC -/

theorem Bsr.nzRow_sum [AddCommMonoid R] [DecidableEq R] {A : Bsr R} (hc : 0 < A.bnc) (i j : ℕ) :
    ((A.nzRow (i / A.bnr) (i % A.bnr)).map fun e => if e.1 = j then e.2 else 0).sum = A.entry i j := by
  unfold Bsr.nzRow Bsr.entry
  rw [emits_sum]
  refine sum_congr rfl fun bc _ => ?_
  rw [emits_sum]
  have hone : ∀ l, ((if A.value.get (bc * (A.bnr * A.bnc) + l * A.bnr + i % A.bnr) ≠ 0 then
      [(A.bindex.get bc * A.bnc + l, A.value.get (bc * (A.bnr * A.bnc) + l * A.bnr + i % A.bnr))] else []).map fun e : ℕ × R =>
        if e.1 = j then e.2 else 0).sum =
      if A.bindex.get bc * A.bnc + l = j then A.value.get (bc * (A.bnr * A.bnc) + l * A.bnr + i % A.bnr) else 0 := by
    intro l
    split
    · simp
    · next hv => rw [not_not] at hv; simp [hv]
  simp only [hone]
  have hj : j / A.bnc * A.bnc + j % A.bnc = j := Nat.div_add_mod' j A.bnc
  have hm := Nat.mod_lt j hc
  by_cases hb : A.bindex.get bc = j / A.bnc
  · rw [if_pos hb, sum_eq_single (j % A.bnc)]
    · rw [if_pos (by rw [hb, hj])]
    · intro l hl hne
      rw [if_neg]
      intro he
      rw [mem_Ico] at hl
      exact hne (divmod_unique hl.2 hm (he.trans hj.symm)).2
    · intro hn; simp only [mem_Ico, not_and, not_lt] at hn
      omega
  · rw [if_neg hb]
    refine sum_eq_zero fun l hl => if_neg fun he => ?_
    rw [mem_Ico] at hl
    exact hb (divmod_unique hl.2 hm (he.trans hj.symm)).1

/-- **C09 (BSR → CSR).** -/
theorem bsr2csr_spec [AddCommMonoid R] [DecidableEq R] (junk : ℕ → ℕ → ℕ) (vjunk : ℕ → R) (A : Bsr R) (h : A.WF)
    (hz : A.Padded) :
    Ok (bsr2csr junk vjunk A) fun C => C.WF ∧ C.n = A.n ∧ C.np = A.n ∧
      ∀ i j, i < A.n → C.entry i j = A.entry i j := by
  refine (bsr2csr_spec' junk vjunk h hz).mono ?_
  rintro C ⟨c1, c2, hC⟩
  refine ⟨hC.wf fun r hr e he => ?_, c1, c2, fun i j hi => ?_⟩
  · rw [c1] at hr
    rw [c2]
    unfold Bsr.nzRow at he
    obtain ⟨bc, h1, h2, he⟩ := emits_mem.1 he
    obtain ⟨l, _, hl, he⟩ := emits_mem.1 he
    split at he
    · next hv =>
      rw [List.mem_singleton] at he; subst he
      by_contra hc
      refine hv (hz.zero (r / A.bnr) ?_ bc h1 h2 (r % A.bnr) l (Nat.mod_lt _ h.hbr) hl (Or.inr (by simp only at hc; omega)))
      rw [Nat.div_lt_iff_lt_mul h.hbr]; exact hr.trans_le h.hn
    · simp at he
  · rw [hC.entry (by omega), Bsr.nzRow_sum h.hbc]

/-- **C09 (BSC → CSR).** -/
theorem bsc2csr_spec [AddCommMonoid R] [DecidableEq R] (junk : ℕ → ℕ → ℕ) (vjunk : ℕ → R) (A : Bsc R) (h : A.WF)
    (hz : A.Padded) :
    Ok (bsc2csr junk vjunk A) fun C => C.WF ∧ C.n = A.n ∧ C.np = A.n ∧
      ∀ i j, i < A.n → j < A.n → C.entry i j = A.entry i j := by
  refine (bsc2csr_spec' junk vjunk h hz).mono ?_
  rintro C ⟨c1, c2, hC⟩
  obtain ⟨hw, he⟩ := Csr.of_cols hC fun e he => by
    unfold Bsc.nzList at he
    obtain ⟨bj, _, hbj, he⟩ := emits_mem.1 he
    obtain ⟨j, _, hj, he⟩ := emits_mem.1 he
    unfold Bsc.nzCol at he
    obtain ⟨bc, h1, h2, he⟩ := emits_mem.1 he
    obtain ⟨i, _, hi, he⟩ := emits_mem.1 he
    unfold Bsc.cell at he
    split at he
    · next hv =>
      rw [List.mem_singleton] at he; subst he
      rw [c2]
      by_contra hc
      exact hv (hz.zero bj hbj bc h1 h2 i j hi hj (Or.inr (by simp only at hc; omega)))
    · simp at he
  refine ⟨hw, c1, c2, fun i j hi hj => ?_⟩
  rw [he i j (by omega)]
  have hjd : j / A.bnc * A.bnc + j % A.bnc = j := Nat.div_add_mod' j A.bnc
  have hjm := Nat.mod_lt j h.hbc
  have hid : i / A.bnr * A.bnr + i % A.bnr = i := Nat.div_add_mod' i A.bnr
  have him := Nat.mod_lt i h.hbr
  have hone : ∀ bj l bc k, ((A.cell bj l bc k).map fun e : ℕ × ℕ × R =>
        if e.1 = i then (if e.2.1 = j then e.2.2 else 0) else 0).sum =
      if A.bindex.get bc * A.bnr + k = i then (if bj * A.bnc + l = j then
        A.value.get (bc * (A.bnr * A.bnc) + l * A.bnr + k) else 0) else 0 := by
    intro bj l bc k
    unfold Bsc.cell
    split
    · simp
    · next hv => rw [not_not] at hv; simp [hv]
  unfold Bsc.nzList Bsc.nzCol Bsc.entry
  simp only [emits_sum, hone]
  rw [sum_eq_single (j / A.bnc)]
  · rw [sum_eq_single (j % A.bnc)]
    · refine sum_congr rfl fun bc _ => ?_
      by_cases hb : A.bindex.get bc = i / A.bnr
      · rw [if_pos hb, sum_eq_single (i % A.bnr)]
        · rw [if_pos (by rw [hb, hid]), if_pos hjd]
        · intro k hk hne
          rw [mem_Ico] at hk
          exact if_neg fun he => hne (divmod_unique hk.2 him (he.trans hid.symm)).2
        · intro hn; simp only [mem_Ico, not_and, not_lt] at hn; omega
      · rw [if_neg hb]
        refine sum_eq_zero fun k hk => if_neg fun he => ?_
        rw [mem_Ico] at hk
        exact hb (divmod_unique hk.2 him (he.trans hid.symm)).1
    · intro l hl hne
      rw [mem_Ico] at hl
      refine sum_eq_zero fun bc _ => sum_eq_zero fun k _ => ?_
      rw [if_neg (c := _ = j) fun he => hne (divmod_unique hl.2 hjm (he.trans hjd.symm)).2, ite_self]
    · intro hn; simp only [mem_Ico, not_and, not_lt] at hn; omega
  · intro bj _ hne
    refine sum_eq_zero fun l hl => ?_
    rw [mem_Ico] at hl
    refine sum_eq_zero fun bc _ => sum_eq_zero fun k _ => ?_
    rw [if_neg (c := _ = j) fun he => hne (divmod_unique hl.2 hjm (he.trans hjd.symm)).1, ite_self]
  · intro hn
    have : j / A.bnc < A.nc := by
      rw [Nat.div_lt_iff_lt_mul h.hbc]; exact hj.trans_le hz.cover
    exact absurd (mem_Ico.2 ⟨Nat.zero_le _, this⟩) hn

theorem blocks_fit {n b : ℕ} (hb : 0 < b) : (1 + (n - 1) / b - 1) * b ≤ n := by
  have := Nat.div_mul_le_self (n - 1) b
  rw [Nat.add_sub_cancel_left]; omega

/-- the blocks made by CSR → BSR are padded with zeros -/
theorem csr2bsr_padded [Zero R] (junk : ℕ → ℕ → ℕ) (vjunk : ℕ → R) (A : Csr R) (bnr bnc : ℕ)
    (hr : 0 < bnr) (hc : 0 < bnc) (h : A.WF) (hsq : A.np = A.n) :
    Ok (csr2bsr bnr bnc junk vjunk A) fun B => B.Padded := by
  unfold csr2bsr
  have hcol : ∀ i, i < A.n → ∀ e ∈ A.rowList i, e.1 < A.n := fun i hi e he => hsq ▸ h.rowList_col hi he
  rw [Ok_bind]
  refine (blkConvert_spec (posOk_bsr (bnr := bnr) (bnc := bnc)) hc (Csr.lines_rep h) (blocks_cover (n := A.n) hc) hcol junk
    vjunk).mono ?_
  intro B hB
  rw [Ok_pure]
  refine ⟨blocks_fit hr, fun br hbr bc h1 h2 i j hi hj ho => ?_⟩
  rw [Nat.add_assoc]
  exact hB.padding hcol hbr h1 h2 hi hj ho

theorem csc2bsc_padded [Zero R] (junk : ℕ → ℕ → ℕ) (vjunk : ℕ → R) (A : Csc R) (b : ℕ)
    (hb : 0 < b) (h : A.WF) (hsq : A.np = A.n) :
    Ok (csc2bsc b b junk vjunk A) fun B => B.Padded := by
  unfold csc2bsc
  have hw := Csc.asCsr_wf h
  have hcol : ∀ i, i < A.np → ∀ e ∈ A.asCsr.rowList i, e.1 < A.n := fun i hi e he => hw.rowList_col (A := A.asCsr) hi he
  rw [Ok_bind]
  refine (blkConvert_spec (posOk_bsc (b := b)) hb (show A.lines.Rep A.np A.asCsr.rowList from Csr.lines_rep hw)
    (blocks_cover (n := A.n) hb) hcol junk vjunk).mono ?_
  intro B hB
  rw [Ok_pure]
  refine ⟨?_, blocks_fit hb, fun bj hbj bc h1 h2 i j hi hj ho => ?_⟩
  · exact blocks_cover' hb
  have := hB.padding hcol hbj h1 h2 hj hi (by rw [hsq]; exact ho.symm)
  rw [Nat.add_assoc, Nat.add_comm (j * b)]; exact this

/-- **C09 (CSR → BSR → CSR).** -/
theorem csr_bsr_csr [AddCommMonoid R] [DecidableEq R] (junk junk' : ℕ → ℕ → ℕ) (vjunk vjunk' : ℕ → R) (A : Csr R)
    (bnr bnc : ℕ) (hr : 0 < bnr) (hc : 0 < bnc) (h : A.WF) (hd : A.NoDup) (hsq : A.np = A.n) :
    Ok (csr2bsr bnr bnc junk vjunk A >>= bsr2csr junk' vjunk') fun C => C.WF ∧ C.n = A.n ∧ C.np = A.n ∧
      ∀ i j, i < A.n → C.entry i j = A.entry i j := by
  rw [Ok_bind]
  refine ((csr2bsr_spec junk vjunk A bnr bnc hr hc h hd hsq).conj (csr2bsr_padded junk vjunk A bnr bnc hr hc h hsq)).mono ?_
  rintro B ⟨⟨w, b1, -, -, b4⟩, hz⟩
  refine (bsr2csr_spec junk' vjunk' B w hz).mono ?_
  rintro C ⟨c1, c2, c3, c4⟩
  exact ⟨c1, by omega, by omega, fun i j hi => by rw [c4 i j (by omega), b4 i j hi]⟩

end Lis
