import Verif.Model.Matvec3
import Verif.Lemmas.Matvec2

/-! Helper lemmas for the block formats. -/

namespace Lis
open Finset
variable {R : Type}

theorem div_iff {b a p : ℕ} (hb : 0 < b) : p * b ≤ a ∧ a < p * b + b ↔ a / b = p := by
  constructor
  · rintro ⟨h1, h2⟩
    have h1' := (Nat.le_div_iff_mul_le hb).2 h1
    have h2' : a / b < p + 1 := (Nat.div_lt_iff_lt_mul hb).2 (by rw [Nat.add_mul]; omega)
    omega
  · rintro rfl
    have := Nat.div_add_mod a b
    have := Nat.mod_lt a hb
    rw [Nat.mul_comm]
    omega

theorem sub_div {b a p : ℕ} (h : a / b = p) : a - p * b = a % b := by
  have := Nat.div_add_mod a b
  subst h
  rw [Nat.mul_comm] at this
  omega

theorem mul_add_div' {b p c : ℕ} (hc : c < b) : (p * b + c) / b = p := by
  rw [Nat.mul_comm, Nat.mul_add_div (by omega), Nat.div_eq_of_lt hc, Nat.add_zero]

theorem mul_add_mod'' {b p c : ℕ} (hc : c < b) : (p * b + c) % b = c := by
  rw [Nat.mul_comm, Nat.mul_add_mod, Nat.mod_eq_of_lt hc]

theorem div_lt_of {b a m : ℕ} (h : a < m * b) : a / b < m :=
  Nat.div_lt_of_lt_mul (by rwa [Nat.mul_comm])

theorem lt_of_div {b a m : ℕ} (hb : 0 < b) (h : a / b < m) : a < m * b :=
  (Nat.div_lt_iff_lt_mul hb).1 h

theorem blk_le {p c b m : ℕ} (hp : p < m) (hc : c < b) : p * b + c < m * b := by
  have : (p + 1) * b ≤ m * b := Nat.mul_le_mul_right _ hp
  rw [Nat.add_mul] at this
  omega

/-- summation by blocks -/
theorem sum_range_blocks {M : Type*} [AddCommMonoid M] (m b : ℕ) (f : ℕ → M) :
    ∑ j ∈ range (m * b), f j = ∑ p ∈ range m, ∑ c ∈ range b, f (p * b + c) := by
  induction m with
  | zero => simp
  | succ m ih => rw [Nat.add_mul, one_mul, sum_range_add, ih, sum_range_succ]

section
variable [NonUnitalNonAssocSemiring R]

theorem blockAcc_spec (bnr bnc : ℕ) (value : Arr R) (k0 : ℕ) (x : Arr R) (xo yo : ℕ) (y : Arr R)
    (hv : k0 + bnr * bnc ≤ value.size) (hx : xo + bnc ≤ x.size) (hy : yo + bnr ≤ y.size) :
    Ok (blockAcc bnr bnc value k0 x xo yo y) fun y' => y'.size = y.size ∧
      ∀ a, y'.get a = y.get a + if yo ≤ a ∧ a < yo + bnr then
        ∑ j ∈ range bnc, value.get (k0 + j * bnr + (a - yo)) * x.get (xo + j) else 0 := by
  unfold blockAcc
  refine Ok_loop_add (fun j a => if yo ≤ a ∧ a < yo + bnr then
    value.get (k0 + j * bnr + (a - yo)) * x.get (xo + j) else 0) ?_ ?_
  · intro j y1 _ hj hs1
    refine Ok_loop_add (fun i a => if yo + i = a then
      value.get (k0 + j * bnr + i) * x.get (xo + j) else 0) ?_ ?_
    · intro i y2 _ hi hs2
      have := blk_le hj hi
      rw [Nat.mul_comm bnc] at this
      simp only [Ok_bind, Ok_rd, Ok_wr]
      exact ⟨by omega, by omega, by omega, by omega, Ok_addAt (by omega) hs2⟩
    · intro y2 hs2 h2
      refine ⟨by omega, fun a => ?_⟩
      rw [h2, sum_Ico_zero]
      congr 1
      split
      · next ha =>
        rw [sum_eq_single (a - yo), if_pos (by omega)]
        · intro i _ hi; rw [if_neg (by omega)]
        · intro hi; simp at hi; omega
      · next ha =>
        refine sum_eq_zero fun i hi => ?_
        rw [mem_range] at hi; rw [if_neg (by omega)]
  · intro y1 hs1 h1
    refine ⟨hs1, fun a => ?_⟩
    rw [h1, sum_Ico_zero]
    split <;> simp

/-- row `i` of a BSR matrix times `x`, by blocks -/
theorem Bsr.row_sum {A : Bsr R} (h : A.WF) (x : ℕ → R) {i : ℕ} (hi : i / A.bnr < A.nr) :
    ∑ j ∈ range (A.nc * A.bnc), A.entry i j * x j =
      ∑ bc ∈ Ico (A.bptr.get (i / A.bnr)) (A.bptr.get (i / A.bnr + 1)), ∑ c ∈ range A.bnc,
        A.value.get (bc * (A.bnr * A.bnc) + c * A.bnr + i % A.bnr) *
          x (A.bindex.get bc * A.bnc + c) := by
  simp only [Bsr.entry, sum_mul]
  rw [sum_comm]
  refine sum_congr rfl fun bc hbc => ?_
  rw [mem_Ico] at hbc
  have hix := h.idx bc (h.bptr.lt_nnz hi hbc.2)
  rw [sum_range_blocks, sum_eq_single (A.bindex.get bc)]
  · refine sum_congr rfl fun c hc => ?_
    rw [mem_range] at hc
    rw [mul_add_div' hc, mul_add_mod'' hc, if_pos rfl]
  · intro p _ hp
    refine sum_eq_zero fun c hc => ?_
    rw [mem_range] at hc
    rw [mul_add_div' hc, if_neg (fun hh => hp hh.symm), zero_mul]
  · intro hh; simp at hh; omega

theorem bsrRowAcc_spec (A : Bsr R) (h : A.WF) {bi : ℕ} (hbi : bi < A.nr) (x y : Arr R)
    (hx : A.nc * A.bnc ≤ x.size) (hy : A.nr * A.bnr ≤ y.size) :
    Ok (bsrRowAcc A bi x y) fun y' => y'.size = y.size ∧
      ∀ a, y'.get a = y.get a + if a / A.bnr = bi then
        ∑ j ∈ range (A.nc * A.bnc), A.entry a j * x.get j else 0 := by
  unfold bsrRowAcc
  have := h.bptr.size; have := h.isz
  simp only [Ok_bind, Ok_rd]
  refine ⟨by omega, by omega, ?_⟩
  refine Ok_loop_add (fun bc a => if a / A.bnr = bi then ∑ c ∈ range A.bnc,
        A.value.get (bc * (A.bnr * A.bnc) + c * A.bnr + a % A.bnr) *
          x.get (A.bindex.get bc * A.bnc + c) else 0) ?_ ?_
  · intro bc y1 _ hbc hs1
    have hlt := h.bptr.lt_nnz hbi hbc
    have hix := h.idx bc hlt
    have hv := h.vsz
    have h1 : (bc + 1) * (A.bnr * A.bnc) ≤ A.bnnz * (A.bnr * A.bnc) := Nat.mul_le_mul_right _ hlt
    have h2 : (A.bindex.get bc + 1) * A.bnc ≤ A.nc * A.bnc := Nat.mul_le_mul_right _ hix
    have h3 : (bi + 1) * A.bnr ≤ A.nr * A.bnr := Nat.mul_le_mul_right _ hbi
    rw [Nat.add_mul] at h1 h2 h3
    simp only [Ok_bind, Ok_rd]
    refine ⟨by omega, ?_⟩
    refine (blockAcc_spec _ _ _ _ _ _ _ _ (by omega) (by omega) (by omega)).mono ?_
    rintro y2 ⟨hs2, hy2⟩
    refine ⟨by omega, fun a => ?_⟩
    rw [hy2]
    congr 1
    simp only [div_iff h.hbr]
    split
    · next ha => rw [sub_div ha]
    · rfl
  · intro y1 hs1 h1
    refine ⟨hs1, fun a => ?_⟩
    rw [h1]
    congr 1
    split
    · next ha => rw [A.row_sum h _ (by omega), ha]
    · simp

theorem bsrAll_spec (A : Bsr R) (h : A.WF) (x y : Arr R)
    (hx : A.nc * A.bnc ≤ x.size) (hy : A.nr * A.bnr ≤ y.size) :
    Ok (loop 0 A.nr y fun bi y => bsrRowAcc A bi x y)
      (IsAddMul (A.nr * A.bnr) (A.nc * A.bnc) A.entry x y) := by
  refine Ok_loop_add (fun bi a => if a / A.bnr = bi then
        ∑ j ∈ range (A.nc * A.bnc), A.entry a j * x.get j else 0) ?_ ?_
  · intro bi y1 _ hbi hs1
    refine (bsrRowAcc_spec A h hbi x y1 hx (by omega)).mono ?_
    rintro y2 ⟨a, b⟩
    exact ⟨by omega, b⟩
  · intro y1 hs1 h1
    refine ⟨hs1, fun a => ?_⟩
    rw [h1, sum_Ico_zero, sum_ite_eq]
    simp only [mem_range, Nat.div_lt_iff_lt_mul h.hbr]

theorem Ok_storeT (bnr i : ℕ) (t y : Arr R) (ht : bnr ≤ t.size) (hy : bnr * i + bnr ≤ y.size) :
    Ok (storeT bnr i t y) fun y' => y'.size = y.size ∧ ∀ a, y'.get a =
      if i * bnr ≤ a ∧ a < i * bnr + bnr then t.get (a - i * bnr) else y.get a := by
  unfold storeT
  rw [Nat.mul_comm] at *
  refine Ok_loop_le (fun r y' => y'.size = y.size ∧ ∀ a, y'.get a =
      if i * bnr ≤ a ∧ a < i * bnr + r then t.get (a - i * bnr) else y.get a) (Nat.zero_le _) ?_ ?_ ?_
  · exact ⟨rfl, fun a => by rw [if_neg (by omega)]⟩
  · rintro r y' _ hr ⟨hs, ha⟩
    simp only [Ok_bind, Ok_rd, Ok_wr]
    refine ⟨by omega, by omega, by simpa using hs, fun a => ?_⟩
    rw [Arr.set_get, ha]
    by_cases h : a = i * bnr + r
    · rw [if_pos h, if_pos (by omega)]; congr 1; omega
    · rw [if_neg h]
      by_cases h' : i * bnr ≤ a ∧ a < i * bnr + r
      · rw [if_pos h', if_pos (by omega)]
      · rw [if_neg h', if_neg (by omega)]
  · exact fun y' h => h

theorem bsrRowAccT_spec (A : Bsr R) (h : A.WF) {bi : ℕ} (hbi : bi < A.nr) (x t : Arr R)
    (hx : A.nc * A.bnc ≤ x.size) (ht : t.size = A.bnr) :
    Ok (bsrRowAccT A bi x t) fun t' => t'.size = A.bnr ∧
      ∀ r, r < A.bnr → t'.get r = t.get r +
        ∑ j ∈ range (A.nc * A.bnc), A.entry (bi * A.bnr + r) j * x.get j := by
  unfold bsrRowAccT bsrAccT
  have := h.bptr.size; have := h.isz
  simp only [Ok_bind, Ok_rd]
  refine ⟨by omega, by omega, ?_⟩
  refine Ok_loop_add (fun bc a => if a < A.bnr then ∑ c ∈ range A.bnc,
        A.value.get (bc * (A.bnr * A.bnc) + c * A.bnr + a) *
          x.get (A.bindex.get bc * A.bnc + c) else 0) ?_ ?_
  · intro bc y1 _ hbc hs1
    have hlt := h.bptr.lt_nnz hbi hbc
    have hix := h.idx bc hlt
    have hv := h.vsz
    have h1 : (bc + 1) * (A.bnr * A.bnc) ≤ A.bnnz * (A.bnr * A.bnc) := Nat.mul_le_mul_right _ hlt
    have h2 : (A.bindex.get bc + 1) * A.bnc ≤ A.nc * A.bnc := Nat.mul_le_mul_right _ hix
    rw [Nat.add_mul] at h1 h2
    simp only [Ok_bind, Ok_rd]
    refine ⟨by omega, ?_⟩
    refine (blockAcc_spec _ _ _ _ _ _ _ _ (by omega) (by omega) (by omega)).mono ?_
    rintro y2 ⟨hs2, hy2⟩
    refine ⟨by omega, fun a => ?_⟩
    rw [hy2]
    simp
  · intro y1 hs1 h1
    refine ⟨by omega, fun r hr => ?_⟩
    rw [h1, A.row_sum h _ (by rw [mul_add_div' hr]; exact hbi), mul_add_div' hr, mul_add_mod'' hr]
    simp only [hr, if_true]

/-- block-diagonal row times `x` -/
theorem blockDiag_sum {b nr : ℕ} (hb : 0 < b) (D : Arr R) (x : ℕ → R) {i : ℕ} (hi : i / b < nr) :
    ∑ j ∈ range (nr * b), blockDiag b D i j * x j =
      ∑ c ∈ range b, D.get (i / b * (b * b) + c * b + i % b) * x (i / b * b + c) := by
  rw [sum_range_blocks, sum_eq_single (i / b)]
  · refine sum_congr rfl fun c hc => ?_
    rw [mem_range] at hc
    rw [blockDiag, mul_add_div' hc, mul_add_mod'' hc, if_pos rfl]
  · intro p _ hp
    refine sum_eq_zero fun c hc => ?_
    rw [mem_range] at hc
    rw [blockDiag, mul_add_div' hc, if_neg (fun hh => hp hh.symm), zero_mul]
  · intro hh; simp at hh; omega

/-- a whole block column of a BSC matrix -/
theorem bscColAcc_spec (A : Bsc R) (h : A.WF) {bi : ℕ} (hbi : bi < A.nc) (x y : Arr R)
    (hx : A.nc * A.bnc ≤ x.size) (hy : A.nr * A.bnr ≤ y.size) :
    Ok (bscColAcc A bi x y) fun y' => y'.size = y.size ∧
      ∀ a, y'.get a = y.get a +
        ∑ c ∈ range A.bnc, A.entry a (bi * A.bnc + c) * x.get (bi * A.bnc + c) := by
  unfold bscColAcc
  have := h.bptr.size; have := h.isz
  simp only [Ok_bind, Ok_rd]
  refine ⟨by omega, by omega, ?_⟩
  refine Ok_loop_add (fun bc a => ∑ c ∈ range A.bnc, (if A.bindex.get bc = a / A.bnr then
        A.value.get (bc * (A.bnr * A.bnc) + c * A.bnr + a % A.bnr) else 0) *
          x.get (bi * A.bnc + c)) ?_ ?_
  · intro bc y1 _ hbc hs1
    have hlt := h.bptr.lt_nnz hbi hbc
    have hix := h.idx bc hlt
    have hv := h.vsz
    have h1 : (bc + 1) * (A.bnr * A.bnc) ≤ A.bnnz * (A.bnr * A.bnc) := Nat.mul_le_mul_right _ hlt
    have h2 : (A.bindex.get bc + 1) * A.bnr ≤ A.nr * A.bnr := Nat.mul_le_mul_right _ hix
    have h3 : (bi + 1) * A.bnc ≤ A.nc * A.bnc := Nat.mul_le_mul_right _ hbi
    rw [Nat.add_mul] at h1 h2 h3
    simp only [Ok_bind, Ok_rd]
    refine ⟨by omega, ?_⟩
    refine (blockAcc_spec _ _ _ _ _ _ _ _ (by omega) (by omega) (by omega)).mono ?_
    rintro y2 ⟨hs2, hy2⟩
    refine ⟨by omega, fun a => ?_⟩
    rw [hy2]
    congr 1
    simp only [div_iff h.hbr]
    split
    · next ha => simp only [sub_div ha, ha, if_true]
    · next ha => simp only [if_neg (fun hh => ha (Eq.symm hh)), zero_mul, sum_const_zero]
  · intro y1 hs1 h1
    refine ⟨hs1, fun a => ?_⟩
    rw [h1]
    congr 1
    rw [sum_comm]
    refine sum_congr rfl fun c hc => ?_
    rw [mem_range] at hc
    rw [Bsc.entry, mul_add_div' hc, mul_add_mod'' hc, sum_mul]

theorem Bsc.entry_eq_zero {A : Bsc R} (h : A.WF) {i j : ℕ} (hi : ¬ i < A.nr * A.bnr)
    (hj : j < A.nc * A.bnc) : A.entry i j = 0 := by
  refine sum_eq_zero fun bc hbc => ?_
  rw [mem_Ico] at hbc
  have := h.idx bc (h.bptr.lt_nnz (div_lt_of hj) hbc.2)
  rw [if_neg]
  intro hh
  exact hi (lt_of_div h.hbr (by omega))

theorem bscAll_spec (A : Bsc R) (h : A.WF) (x y : Arr R)
    (hx : A.nc * A.bnc ≤ x.size) (hy : A.nr * A.bnr ≤ y.size) :
    Ok (loop 0 A.nc y fun bi y => bscColAcc A bi x y)
      (IsAddMul (A.nr * A.bnr) (A.nc * A.bnc) A.entry x y) := by
  refine Ok_loop_add (fun bi a =>
    ∑ c ∈ range A.bnc, A.entry a (bi * A.bnc + c) * x.get (bi * A.bnc + c)) ?_ ?_
  · intro bi y1 _ hbi hs1
    refine (bscColAcc_spec A h hbi x y1 hx (by omega)).mono ?_
    rintro y2 ⟨a, b⟩
    exact ⟨by omega, b⟩
  · intro y1 hs1 h1
    refine ⟨hs1, fun a => ?_⟩
    rw [h1, sum_Ico_zero, ← sum_range_blocks A.nc A.bnc fun j => A.entry a j * x.get j]
    congr 1
    split
    · rfl
    · next ha =>
      refine sum_eq_zero fun j hj => ?_
      rw [A.entry_eq_zero h ha (by simpa using hj), zero_mul]

theorem vbrBlockAcc_spec (value : Arr R) (k0 js je is ie : ℕ) (x y : Arr R) (hi : is ≤ ie)
    (hv : k0 + (je - js) * (ie - is) ≤ value.size) (hx : je ≤ x.size) (hy : ie ≤ y.size) :
    Ok (vbrBlockAcc value k0 js je is ie x y) fun y' => y'.size = y.size ∧
      ∀ a, y'.get a = y.get a + ∑ j ∈ Ico js je, (if is ≤ a ∧ a < ie then
        value.get (k0 + (j - js) * (ie - is) + (a - is)) else 0) * x.get j := by
  unfold vbrBlockAcc
  refine Ok_loop_add (fun j a => (if is ≤ a ∧ a < ie then
        value.get (k0 + (j - js) * (ie - is) + (a - is)) else 0) * x.get j) ?_ ?_
  · intro j y1 hj1 hj hs1
    refine Ok_loop_add (fun i a => if i = a then
      value.get (k0 + (j - js) * (ie - is) + (i - is)) * x.get j else 0) ?_ ?_
    · intro i y2 hi1 hi2 hs2
      have := blk_le (p := j - js) (m := je - js) (c := i - is) (b := ie - is) (by omega) (by omega)
      simp only [Ok_bind, Ok_rd, Ok_wr]
      exact ⟨by omega, by omega, by omega, by omega, Ok_addAt (by omega) hs2⟩
    · intro y2 hs2 h2
      refine ⟨by omega, fun a => ?_⟩
      rw [h2, sum_ite_eq']
      simp only [mem_Ico, ite_mul, zero_mul]
  · intro y1 hs1 h1
    exact ⟨hs1, h1⟩

end

section star
variable [NonUnitalNonAssocSemiring R] [StarRing R]

theorem blockAccH_spec (bnr bnc : ℕ) (value : Arr R) (k0 : ℕ) (x : Arr R) (xo yo : ℕ) (y : Arr R)
    (hv : k0 + bnr * bnc ≤ value.size) (hx : xo + bnr ≤ x.size) (hy : yo + bnc ≤ y.size) :
    Ok (blockAccH bnr bnc value k0 x xo yo y) fun y' => y'.size = y.size ∧
      ∀ a, y'.get a = y.get a + if yo ≤ a ∧ a < yo + bnc then
        ∑ i ∈ range bnr, star (value.get (k0 + (a - yo) * bnr + i)) * x.get (xo + i) else 0 := by
  unfold blockAccH
  refine Ok_loop_add (fun j a => if yo + j = a then
    ∑ i ∈ range bnr, star (value.get (k0 + j * bnr + i)) * x.get (xo + i) else 0) ?_ ?_
  · intro j y1 _ hj hs1
    refine Ok_loop_add (fun i a => if yo + j = a then
      star (value.get (k0 + j * bnr + i)) * x.get (xo + i) else 0) ?_ ?_
    · intro i y2 _ hi hs2
      have := blk_le hj hi
      rw [Nat.mul_comm bnc] at this
      simp only [Ok_bind, Ok_rd, Ok_wr]
      exact ⟨by omega, by omega, by omega, by omega, Ok_addAt (by omega) hs2⟩
    · intro y2 hs2 h2
      refine ⟨by omega, fun a => ?_⟩
      rw [h2, sum_Ico_zero]
      split <;> simp
  · intro y1 hs1 h1
    refine ⟨hs1, fun a => ?_⟩
    rw [h1, sum_Ico_zero]
    congr 1
    split
    · next ha =>
      rw [sum_eq_single (a - yo), if_pos (by omega)]
      · intro i _ hi; rw [if_neg (by omega)]
      · intro hi; simp at hi; omega
    · next ha =>
      refine sum_eq_zero fun i hi => ?_
      rw [mem_range] at hi; rw [if_neg (by omega)]

theorem bsrRowAccH_spec (A : Bsr R) (h : A.WF) {bi : ℕ} (hbi : bi < A.nr) (x y : Arr R)
    (hx : A.nr * A.bnr ≤ x.size) (hy : A.nc * A.bnc ≤ y.size) :
    Ok (bsrRowAccH A bi x y) fun y' => y'.size = y.size ∧
      ∀ a, y'.get a = y.get a +
        ∑ r ∈ range A.bnr, star (A.entry (bi * A.bnr + r) a) * x.get (bi * A.bnr + r) := by
  unfold bsrRowAccH
  have := h.bptr.size; have := h.isz
  simp only [Ok_bind, Ok_rd]
  refine ⟨by omega, by omega, ?_⟩
  refine Ok_loop_add (fun bc a => ∑ r ∈ range A.bnr, star (if A.bindex.get bc = a / A.bnc then
        A.value.get (bc * (A.bnr * A.bnc) + a % A.bnc * A.bnr + r) else 0) *
          x.get (bi * A.bnr + r)) ?_ ?_
  · intro bc y1 _ hbc hs1
    have hlt := h.bptr.lt_nnz hbi hbc
    have hix := h.idx bc hlt
    have hv := h.vsz
    have h1 : (bc + 1) * (A.bnr * A.bnc) ≤ A.bnnz * (A.bnr * A.bnc) := Nat.mul_le_mul_right _ hlt
    have h2 : (A.bindex.get bc + 1) * A.bnc ≤ A.nc * A.bnc := Nat.mul_le_mul_right _ hix
    have h3 : (bi + 1) * A.bnr ≤ A.nr * A.bnr := Nat.mul_le_mul_right _ hbi
    rw [Nat.add_mul] at h1 h2 h3
    simp only [Ok_bind, Ok_rd]
    refine ⟨by omega, ?_⟩
    refine (blockAccH_spec _ _ _ _ _ _ _ _ (by omega) (by omega) (by omega)).mono ?_
    rintro y2 ⟨hs2, hy2⟩
    refine ⟨by omega, fun a => ?_⟩
    rw [hy2]
    congr 1
    simp only [div_iff h.hbc]
    split
    · next ha => simp only [sub_div ha, ha, if_true]
    · next ha => simp only [if_neg (fun hh => ha (Eq.symm hh)), star_zero, zero_mul, sum_const_zero]
  · intro y1 hs1 h1
    refine ⟨hs1, fun a => ?_⟩
    rw [h1]
    congr 1
    rw [sum_comm]
    refine sum_congr rfl fun c hc => ?_
    rw [mem_range] at hc
    rw [Bsr.entry, mul_add_div' hc, mul_add_mod'' hc, star_sum, sum_mul]

theorem Bsr.entry_eq_zero {A : Bsr R} (h : A.WF) {i j : ℕ} (hi : i < A.nr * A.bnr)
    (hj : ¬ j < A.nc * A.bnc) : A.entry i j = 0 := by
  refine sum_eq_zero fun bc hbc => ?_
  rw [mem_Ico] at hbc
  have := h.idx bc (h.bptr.lt_nnz (div_lt_of hi) hbc.2)
  rw [if_neg]
  intro hh
  exact hj (lt_of_div h.hbc (by omega))

theorem bsrAllH_spec (A : Bsr R) (h : A.WF) (x y : Arr R)
    (hx : A.nr * A.bnr ≤ x.size) (hy : A.nc * A.bnc ≤ y.size) :
    Ok (loop 0 A.nr y fun bi y => bsrRowAccH A bi x y)
      (IsAddMulH (A.nr * A.bnr) (A.nc * A.bnc) A.entry x y) := by
  refine Ok_loop_add (fun bi a =>
    ∑ r ∈ range A.bnr, star (A.entry (bi * A.bnr + r) a) * x.get (bi * A.bnr + r)) ?_ ?_
  · intro bi y1 _ hbi hs1
    refine (bsrRowAccH_spec A h hbi x y1 hx (by omega)).mono ?_
    rintro y2 ⟨a, b⟩
    exact ⟨by omega, b⟩
  · intro y1 hs1 h1
    refine ⟨hs1, fun a => ?_⟩
    rw [h1, sum_Ico_zero, ← sum_range_blocks A.nr A.bnr fun i => star (A.entry i a) * x.get i]
    congr 1
    split
    · rfl
    · next ha =>
      refine sum_eq_zero fun j hj => ?_
      rw [A.entry_eq_zero h (by simpa using hj) ha, star_zero, zero_mul]

/-- block-diagonal part, conjugate transposed -/
theorem bsrDiagH_spec {b nr : ℕ} (hb : 0 < b) (D x y : Arr R) (hD : nr * (b * b) ≤ D.size)
    (hx : nr * b ≤ x.size) (hy : nr * b ≤ y.size) :
    Ok (loop 0 nr y fun bi y => blockAccH b b D (bi * (b * b)) x (bi * b) (bi * b) y)
      (IsAddMulH (nr * b) (nr * b) (blockDiag b D) x y) := by
  refine Ok_loop_add (fun bi a => if a / b = bi then
    ∑ r ∈ range b, star (D.get (bi * (b * b) + a % b * b + r)) * x.get (bi * b + r) else 0) ?_ ?_
  · intro bi y1 _ hbi hs1
    have h1 : (bi + 1) * (b * b) ≤ nr * (b * b) := Nat.mul_le_mul_right _ hbi
    have h2 : (bi + 1) * b ≤ nr * b := Nat.mul_le_mul_right _ hbi
    rw [Nat.add_mul] at h1 h2
    refine (blockAccH_spec _ _ _ _ _ _ _ _ (by omega) (by omega) (by omega)).mono ?_
    rintro y2 ⟨hs2, hy2⟩
    refine ⟨by omega, fun a => ?_⟩
    rw [hy2]
    simp only [div_iff hb]
    split
    · next ha => rw [sub_div ha]
    · rfl
  · intro y1 hs1 h1
    refine ⟨hs1, fun a => ?_⟩
    rw [h1, sum_Ico_zero, sum_ite_eq]
    simp only [mem_range, Nat.div_lt_iff_lt_mul hb]
    congr 1
    split
    · next ha =>
      have key : ∑ i ∈ range (nr * b), star (blockDiag b D i a) * x.get i =
          ∑ r ∈ range b, star (D.get (a / b * (b * b) + a % b * b + r)) * x.get (a / b * b + r) := by
        rw [sum_range_blocks, sum_eq_single (a / b)]
        · refine sum_congr rfl fun c hc => ?_
          rw [mem_range] at hc
          rw [blockDiag, mul_add_div' hc, mul_add_mod'' hc, if_pos rfl]
        · intro p _ hp
          refine sum_eq_zero fun c hc => ?_
          rw [mem_range] at hc
          rw [blockDiag, mul_add_div' hc, if_neg hp, star_zero, zero_mul]
        · intro hh; simp at hh; have := div_lt_of ha; omega
      exact key.symm
    · rfl

theorem vbrBlockAccH_spec (value : Arr R) (k0 js je is ie : ℕ) (x y : Arr R)
    (hv : k0 + (je - js) * (ie - is) ≤ value.size) (hx : ie ≤ x.size) (hy : je ≤ y.size) :
    Ok (vbrBlockAccH value k0 js je is ie x y) fun y' => y'.size = y.size ∧
      ∀ a, y'.get a = y.get a + ∑ i ∈ Ico is ie, star (if js ≤ a ∧ a < je then
        value.get (k0 + (a - js) * (ie - is) + (i - is)) else 0) * x.get i := by
  unfold vbrBlockAccH
  refine Ok_loop_add (fun j a => if j = a then ∑ i ∈ Ico is ie,
        star (value.get (k0 + (j - js) * (ie - is) + (i - is))) * x.get i else 0) ?_ ?_
  · intro j y1 hj1 hj hs1
    refine Ok_loop_add (fun i a => if j = a then
      star (value.get (k0 + (j - js) * (ie - is) + (i - is))) * x.get i else 0) ?_ ?_
    · intro i y2 hi1 hi2 hs2
      have := blk_le (p := j - js) (m := je - js) (c := i - is) (b := ie - is) (by omega) (by omega)
      simp only [Ok_bind, Ok_rd, Ok_wr]
      exact ⟨by omega, by omega, by omega, by omega, Ok_addAt (by omega) hs2⟩
    · intro y2 hs2 h2
      refine ⟨by omega, fun a => ?_⟩
      rw [h2]
      split <;> simp
  · intro y1 hs1 h1
    refine ⟨hs1, fun a => ?_⟩
    rw [h1, sum_ite_eq']
    simp only [mem_Ico]
    split <;> simp

end star
end Lis
