import Verif.Lemmas.Matvec3
import Verif.Props.Matvec2

/-!
# C06, C07 — `lis_matvec` / `lis_matvech` for BSR, BSC, VBR

The block kernels work on the padded vectors: `x` must have `nc*bnc` and `y` must have `nr*bnr`
elements, which may exceed `n` (see `matvecBsrU_oob` for what happens otherwise).
-/

namespace Lis
open Finset
variable {R : Type}

section mul
variable [NonUnitalNonAssocSemiring R]

/-- rows `i < n` of a product over padded columns are rows of the unpadded product when the padding
columns of the matrix are zero -/
theorem IsMul.unpad {n m : ℕ} {a : ℕ → ℕ → R} {x y : ℕ → R} (h : IsMul n m a x y) (hnm : n ≤ m)
    (hz : ∀ i j, i < n → n ≤ j → j < m → a i j = 0) : IsMul n n a x y := by
  intro i hi
  rw [h i hi]
  symm
  refine sum_subset (range_mono hnm) fun j hj hj' => ?_
  simp only [mem_range] at hj hj'
  rw [hz i j hi (by omega) hj, zero_mul]

theorem padded_of_add {n n' m : ℕ} {a : ℕ → ℕ → R} {x y : Arr R} {f : Arr R → Option (Arr R)}
    (hn : n ≤ n') (hy : n' ≤ y.size)
    (hf : ∀ y1 : Arr R, y1.size = y.size → Ok (f y1) (IsAddMul n' m a x y1)) :
    Ok (zeroFill n y >>= f) fun y' => y'.size = y.size ∧ IsMul n m a x.get y'.get ∧
      SameFrom n' y.get y'.get := by
  rw [Ok_bind]
  refine Ok_zeroFill (by omega) fun y1 hs1 hz => (hf y1 hs1).mono ?_
  rintro y2 ⟨hs2, h2⟩
  refine ⟨by omega, fun i hi => ?_, fun i hi => ?_⟩
  · rw [h2, hz, if_pos hi, if_pos (by omega), zero_add]
  · rw [h2, hz, if_neg (by omega), if_neg (by omega), add_zero]

/-- C06 BSR (generic kernel, unsplit): any block size -/
theorem matvecBsr_spec (A : Bsr R) (h : A.WF) (x y : Arr R) (hx : A.nc * A.bnc ≤ x.size)
    (hy : A.nr * A.bnr ≤ y.size) :
    Ok (matvecBsr A x y) fun y' => y'.size = y.size ∧
      IsMul A.n (A.nc * A.bnc) A.entry x.get y'.get ∧ SameFrom (A.nr * A.bnr) y.get y'.get :=
  padded_of_add h.hn hy fun y1 hs => bsrAll_spec A h x y1 hx (by omega)

/-- C06 BSR (unrolled kernels, unsplit) -/
theorem matvecBsrU_spec (A : Bsr R) (h : A.WF) (x y : Arr R) (hx : A.nc * A.bnc ≤ x.size)
    (hy : A.nr * A.bnr ≤ y.size) :
    Ok (matvecBsrU A x y) fun y' => y'.size = y.size ∧
      IsMul A.n (A.nc * A.bnc) A.entry x.get y'.get ∧ SameFrom (A.nr * A.bnr) y.get y'.get := by
  unfold matvecBsrU
  refine Ok_loop_le (fun i y' => y'.size = y.size ∧ ∀ a, y'.get a = if a / A.bnr < i then
      ∑ j ∈ range (A.nc * A.bnc), A.entry a j * x.get j else y.get a) (Nat.zero_le _)
    ⟨rfl, by simp⟩ ?_ ?_
  · rintro i y1 _ hi ⟨hs1, h1⟩
    rw [Ok_bind]
    refine (bsrRowAccT_spec A h hi x _ hx rfl).mono ?_
    rintro t ⟨ht, ht'⟩
    have h3 : (i + 1) * A.bnr ≤ A.nr * A.bnr := Nat.mul_le_mul_right _ hi
    rw [Nat.add_mul] at h3
    refine (Ok_storeT A.bnr i t y1 (by omega) (by rw [Nat.mul_comm]; omega)).mono ?_
    rintro y2 ⟨hs2, h2⟩
    refine ⟨by omega, fun a => ?_⟩
    rw [h2, h1]
    by_cases hc : a / A.bnr = i
    · have hc' := (div_iff h.hbr).2 hc
      rw [if_pos hc', if_pos (by omega), ht' _ (by omega), zero_add,
        show i * A.bnr + (a - i * A.bnr) = a by omega]
    · rw [if_neg (fun hh => hc ((div_iff h.hbr).1 hh))]
      by_cases hl : a / A.bnr < i
      · rw [if_pos hl, if_pos (by omega)]
      · rw [if_neg hl, if_neg (by omega)]
  · rintro y1 ⟨hs, h1⟩
    refine ⟨hs, fun i hi => ?_, fun i hi => ?_⟩
    · rw [h1, if_pos (div_lt_of (by have := h.hn; omega))]
    · rw [h1, if_neg]
      intro hh
      have := lt_of_div h.hbr hh
      omega

/-- C06 BSR through the dispatcher `lis_matvec`: unrolled kernel for `bnr,bnc ≤ 4`, the generic one
otherwise — both give the product -/
theorem lisMatvecBsr_spec (A : Bsr R) (h : A.WF) (x y : Arr R) (hx : A.nc * A.bnc ≤ x.size)
    (hy : A.nr * A.bnr ≤ y.size) :
    Ok (lisMatvecBsr A x y) fun y' => y'.size = y.size ∧
      IsMul A.n (A.nc * A.bnc) A.entry x.get y'.get ∧ SameFrom (A.nr * A.bnr) y.get y'.get := by
  unfold lisMatvecBsr
  split
  · exact matvecBsrU_spec A h x y hx hy
  · exact matvecBsr_spec A h x y hx hy

theorem SplitBsr.entry_sum (A : SplitBsr R) (x : ℕ → R) (i m : ℕ) :
    ∑ j ∈ range m, A.entry i j * x j = ∑ j ∈ range m, blockDiag A.b A.D i j * x j +
      ∑ j ∈ range m, A.L.entry i j * x j + ∑ j ∈ range m, A.U.entry i j * x j := by
  simp only [SplitBsr.entry, add_mul, sum_add_distrib]

/-- C06 BSR (generic kernel, split) -/
theorem matvecSplitBsr_spec (A : SplitBsr R) (h : A.WF) (x y : Arr R) (hx : A.nr * A.b ≤ x.size)
    (hy : A.nr * A.b ≤ y.size) :
    Ok (matvecSplitBsr A x y) fun y' => y'.size = y.size ∧
      IsMul A.n (A.nr * A.b) A.entry x.get y'.get ∧ SameFrom (A.nr * A.b) y.get y'.get := by
  obtain ⟨-, l2, l3, l4, l5⟩ := h.l
  obtain ⟨-, u2, u3, u4, u5⟩ := h.u
  refine padded_of_add (n' := A.nr * A.b) h.hn hy fun y1 hs => ?_
  refine Ok_loop_add (fun bi a => if a / A.b = bi then
        ∑ j ∈ range (A.nr * A.b), A.entry a j * x.get j else 0) ?_ ?_
  · intro bi y2 _ hbi hs2
    have h1 : (bi + 1) * (A.b * A.b) ≤ A.nr * (A.b * A.b) := Nat.mul_le_mul_right _ hbi
    have h2 : (bi + 1) * A.b ≤ A.nr * A.b := Nat.mul_le_mul_right _ hbi
    rw [Nat.add_mul] at h1 h2
    have := h.dsz
    simp only [Ok_bind]
    refine (blockAcc_spec _ _ _ _ _ _ _ _ (by omega) (by omega) (by omega)).mono ?_
    rintro y3 ⟨hs3, h3⟩
    refine (bsrRowAcc_spec A.L h.lwf (by omega) x y3 (by rwa [l3, l5]) (by rw [l2, l4]; omega)).mono ?_
    rintro y4 ⟨hs4, h4⟩
    refine (bsrRowAcc_spec A.U h.uwf (by omega) x y4 (by rwa [u3, u5]) (by rw [u2, u4]; omega)).mono ?_
    rintro y5 ⟨hs5, h5⟩
    refine ⟨by omega, fun a => ?_⟩
    rw [h5, h4, h3, l3, l4, l5, u3, u4, u5]
    simp only [div_iff h.hb]
    split
    · next ha =>
      rw [A.entry_sum, blockDiag_sum h.hb _ _ (by omega), sub_div ha, ← ha]
      simp only [add_assoc]
    · simp
  · intro y2 hs2 h2
    refine ⟨hs2, fun a => ?_⟩
    rw [h2, sum_Ico_zero, sum_ite_eq]
    simp only [mem_range, Nat.div_lt_iff_lt_mul h.hb]

/-- C06 BSR (unrolled square kernels, split) -/
theorem matvecSplitBsrU_spec (A : SplitBsr R) (h : A.WF) (x y : Arr R) (hx : A.nr * A.b ≤ x.size)
    (hy : A.nr * A.b ≤ y.size) :
    Ok (matvecSplitBsrU A x y) fun y' => y'.size = y.size ∧
      IsMul A.n (A.nr * A.b) A.entry x.get y'.get ∧ SameFrom (A.nr * A.b) y.get y'.get := by
  obtain ⟨-, l2, l3, l4, l5⟩ := h.l
  obtain ⟨-, u2, u3, u4, u5⟩ := h.u
  unfold matvecSplitBsrU
  refine Ok_loop_le (fun i y' => y'.size = y.size ∧ ∀ a, y'.get a = if a / A.b < i then
      ∑ j ∈ range (A.nr * A.b), A.entry a j * x.get j else y.get a) (Nat.zero_le _)
    ⟨rfl, by simp⟩ ?_ ?_
  · rintro i y1 _ hi ⟨hs1, h1⟩
    have h3 : (i + 1) * (A.b * A.b) ≤ A.nr * (A.b * A.b) := Nat.mul_le_mul_right _ hi
    have h4 : (i + 1) * A.b ≤ A.nr * A.b := Nat.mul_le_mul_right _ hi
    rw [Nat.add_mul] at h3 h4
    have := h.dsz
    simp only [Ok_bind, bsrAccT]
    refine (blockAcc_spec A.b A.b A.D _ x _ 0 ⟨A.b, fun _ => 0⟩ (by omega) (by omega) (by simp)).mono ?_
    rintro t1 ⟨ht1, ht1'⟩
    refine (bsrRowAccT_spec A.L h.lwf (by omega) x t1 (by rwa [l3, l5]) (by rw [ht1, l4])).mono ?_
    rintro t2 ⟨ht2, ht2'⟩
    refine (bsrRowAccT_spec A.U h.uwf (by omega) x t2 (by rwa [u3, u5]) (by rw [ht2, u4, l4])).mono ?_
    rintro t ⟨ht, ht'⟩
    refine (Ok_storeT A.b i t y1 (by omega) (by rw [Nat.mul_comm]; omega)).mono ?_
    rintro y2 ⟨hs2, h2⟩
    refine ⟨by omega, fun a => ?_⟩
    rw [h2, h1]
    by_cases hc : a / A.b = i
    · have hc' := (div_iff h.hb).2 hc
      rw [if_pos hc', if_pos (by omega), ht' _ (by omega), ht2' _ (by omega), ht1',
        l4, u4, show i * A.b + (a - i * A.b) = a by omega, l3, l5, u3, u5, A.entry_sum,
        blockDiag_sum h.hb _ _ (by omega), hc, if_pos (by omega)]
      simp only [Nat.sub_zero, sub_div hc, zero_add]
    · rw [if_neg (fun hh => hc ((div_iff h.hb).1 hh))]
      by_cases hl : a / A.b < i
      · rw [if_pos hl, if_pos (by omega)]
      · rw [if_neg hl, if_neg (by omega)]
  · rintro y1 ⟨hs, h1⟩
    refine ⟨hs, fun i hi => ?_, fun i hi => ?_⟩
    · rw [h1, if_pos (div_lt_of (by have := h.hn; omega))]
    · rw [h1, if_neg]
      intro hh
      have := lt_of_div h.hb hh
      omega

/-- **the unrolled BSR kernels need padded vectors**: with `n` not a multiple of `bnr` and a result
vector of exactly `n` elements (what `lis_vector_set_size` allocates), the kernel writes past its
end. -/
theorem matvecBsrU_oob (A : Bsr R) (h : A.WF) (x y : Arr R) (hnr : 0 < A.nr)
    (hy : y.size < A.nr * A.bnr) : matvecBsrU A x y = none := by
  unfold matvecBsrU
  have hb := h.hbr
  have e : A.bnr * (A.nr - 1) + A.bnr = A.nr * A.bnr := by
    have h1 : A.nr - 1 + 1 = A.nr := by omega
    calc A.bnr * (A.nr - 1) + A.bnr = A.bnr * (A.nr - 1 + 1) := by rw [Nat.mul_add, Nat.mul_one]
      _ = _ := by rw [h1, Nat.mul_comm]
  have key : ∀ y1 : Arr R, y1.size = y.size →
      (bsrRowAccT A (A.nr - 1) x ⟨A.bnr, fun _ => 0⟩ >>= fun t => storeT A.bnr (A.nr - 1) t y1) = none := by
    intro y1 hs1
    cases bsrRowAccT A (A.nr - 1) x ⟨A.bnr, fun _ => 0⟩ with
    | none => rfl
    | some t =>
      change storeT A.bnr (A.nr - 1) t y1 = none
      unfold storeT
      have gen : ∀ k i (z : Arr R), z.size = y.size → i + k = A.bnr → 0 < k →
          iter (fun r y => do let tr ← t.rd r; y.wr (A.bnr * (A.nr - 1) + r) tr) k i z = none := by
        intro k
        induction k with
        | zero => intros; omega
        | succ k ih =>
          intro i z hz hik _
          simp only [iter]
          cases ht : t.rd i with
          | none => rfl
          | some tr =>
            change (z.wr (A.bnr * (A.nr - 1) + i) tr).bind _ = none
            unfold Arr.wr
            split
            · next hlt =>
              exact ih (i + 1) _ (by simpa using hz) (by omega) (by omega)
            · rfl
      exact gen _ _ _ hs1 (by omega) (by omega)
  have sz : ∀ (i : ℕ) (y1 y2 : Arr R), (bsrRowAccT A i x ⟨A.bnr, fun _ => 0⟩ >>=
      fun t => storeT A.bnr i t y1) = some y2 → y2.size = y1.size := by
    intro i y1 y2 he
    cases hb : bsrRowAccT A i x ⟨A.bnr, fun _ => 0⟩ with
    | none => rw [hb] at he; cases he
    | some t =>
      rw [hb] at he
      change storeT A.bnr i t y1 = some y2 at he
      unfold storeT loop at he
      have gen : ∀ k r (z : Arr R), iter (fun r y => do let tr ← t.rd r; y.wr (A.bnr * i + r) tr) k r z
          = some y2 → y2.size = z.size := by
        intro k
        induction k with
        | zero => intro r z hz; simp only [iter, Option.some.injEq] at hz; rw [hz]
        | succ k ih =>
          intro r z hz
          simp only [iter] at hz
          cases ht : t.rd r with
          | none => rw [ht] at hz; cases hz
          | some tr =>
            rw [ht] at hz
            change (z.wr (A.bnr * i + r) tr).bind _ = _ at hz
            unfold Arr.wr at hz
            split at hz
            · have := ih _ _ hz; simpa using this
            · cases hz
      exact gen _ _ _ he
  have gen : ∀ k i (z : Arr R), z.size = y.size → i + k = A.nr → 0 < k →
      iter (fun i y => bsrRowAccT A i x ⟨A.bnr, fun _ => 0⟩ >>= fun t => storeT A.bnr i t y) k i z
        = none := by
    intro k
    induction k with
    | zero => intros; omega
    | succ k ih =>
      intro i z hz hik _
      simp only [iter]
      by_cases hi : i = A.nr - 1
      · subst hi
        rw [key z hz]; rfl
      · cases hst : (bsrRowAccT A i x ⟨A.bnr, fun _ => 0⟩ >>= fun t => storeT A.bnr i t z) with
        | none => rfl
        | some y2 => exact ih (i + 1) y2 (by rw [sz i z y2 hst, hz]) (by omega) (by omega)
  exact gen _ _ _ rfl (by omega) (by omega)

/-- C06 BSC (unsplit, one thread) -/
theorem matvecBsc_spec (A : Bsc R) (h : A.WF) (x y : Arr R) (hx : A.nc * A.bnc ≤ x.size)
    (hy : A.nr * A.bnr ≤ y.size) :
    Ok (matvecBsc A x y) fun y' => y'.size = y.size ∧
      IsMul A.n (A.nc * A.bnc) A.entry x.get y'.get ∧ SameFrom (A.nr * A.bnr) y.get y'.get :=
  padded_of_add h.hn hy fun y1 hs => bscAll_spec A h x y1 hx (by omega)

/-- C06 BSC (split, one thread) -/
theorem matvecSplitBsc_spec (A : SplitBsc R) (h : A.WF) (x y : Arr R) (hx : A.nr * A.b ≤ x.size)
    (hy : A.nr * A.b ≤ y.size) :
    Ok (matvecSplitBsc A x y) fun y' => y'.size = y.size ∧
      IsMul A.n (A.nr * A.b) A.entry x.get y'.get ∧ SameFrom (A.nr * A.b) y.get y'.get := by
  obtain ⟨-, l2, l3, l4, l5⟩ := h.l
  obtain ⟨-, u2, u3, u4, u5⟩ := h.u
  unfold matvecSplitBsc
  rw [Ok_bind]
  refine Ok_loop_le (fun i y' => y'.size = y.size ∧ ∀ a, y'.get a = if a / A.b < i then
      ∑ j ∈ range (A.nr * A.b), blockDiag A.b A.D a j * x.get j else y.get a) (Nat.zero_le _)
    ⟨rfl, by simp⟩ ?_ ?_
  · rintro bi y1 _ hbi ⟨hs1, h1⟩
    have h3 : (bi + 1) * (A.b * A.b) ≤ A.nr * (A.b * A.b) := Nat.mul_le_mul_right _ hbi
    have h4 : (bi + 1) * A.b ≤ A.nr * A.b := Nat.mul_le_mul_right _ hbi
    rw [Nat.add_mul] at h3 h4
    have := h.dsz
    refine Ok_loop_le (fun i y' => y'.size = y.size ∧ ∀ a, y'.get a =
        if a < bi * A.b + i then
          ∑ j ∈ range (A.nr * A.b), blockDiag A.b A.D a j * x.get j else y.get a) (Nat.zero_le _)
      ⟨hs1, fun a => ?_⟩ ?_ ?_
    · rw [h1]; simp only [Nat.div_lt_iff_lt_mul h.hb, Nat.add_zero]
    · rintro i y2 _ hi ⟨hs2, h2⟩
      rw [Ok_bind]
      refine Ok_loop_sum' (fun j => A.D.get (bi * (A.b * A.b) + j * A.b + i) * x.get (bi * A.b + j))
        ?_ ?_
      · intro j t _ hj
        have := blk_le hj hi
        simp only [Ok_bind, Ok_rd, Ok_pure]
        exact ⟨by omega, by omega, trivial⟩
      · rw [Ok_wr]
        refine ⟨by omega, by simpa using hs2, fun a => ?_⟩
        rw [Arr.set_get, h2]
        by_cases ha : a = bi * A.b + i
        · rw [if_pos ha, if_pos (by omega), blockDiag_sum h.hb _ _ (by
            rw [ha, mul_add_div' hi]; exact hbi), ha, mul_add_div' hi, mul_add_mod'' hi, zero_add,
            sum_Ico_zero]
        · rw [if_neg ha]
          by_cases hl : a < bi * A.b + i
          · rw [if_pos hl, if_pos (by omega)]
          · rw [if_neg hl, if_neg (by omega)]
    · rintro y2 ⟨hs2, h2⟩
      refine ⟨hs2, fun a => ?_⟩
      rw [h2]
      simp only [Nat.div_lt_iff_lt_mul h.hb, Nat.add_mul, Nat.one_mul]
  · rintro y1 ⟨hs1, h1⟩
    refine Ok_loop_add (fun bi a => ∑ c ∈ range A.b, A.L.entry a (bi * A.b + c) * x.get (bi * A.b + c)
      + ∑ c ∈ range A.b, A.U.entry a (bi * A.b + c) * x.get (bi * A.b + c)) ?_ ?_
    · intro bi y2 _ hbi hs2
      rw [Ok_bind]
      refine (bscColAcc_spec A.L h.lwf (by omega) x y2 (by rwa [l3, l5]) (by rw [l2, l4]; omega)).mono ?_
      rintro y4 ⟨hs4, h4⟩
      refine (bscColAcc_spec A.U h.uwf (by omega) x y4 (by rwa [u3, u5]) (by rw [u2, u4]; omega)).mono ?_
      rintro y5 ⟨hs5, h5⟩
      refine ⟨by omega, fun a => ?_⟩
      rw [h5, h4, l5, u5, add_assoc]
    · intro y2 hs2 h2
      refine ⟨by omega, fun a ha => ?_, fun a ha => ?_⟩
      · rw [h2, h1, if_pos (div_lt_of (by have := h.hn; omega)), sum_Ico_zero, sum_add_distrib,
          ← sum_range_blocks A.nr A.b fun j => A.L.entry a j * x.get j,
          ← sum_range_blocks A.nr A.b fun j => A.U.entry a j * x.get j]
        simp only [SplitBsc.entry, add_mul, sum_add_distrib, add_assoc]
      · rw [h2, h1, if_neg (fun hh => by have := lt_of_div h.hb hh; omega), sum_Ico_zero, sum_add_distrib,
          ← sum_range_blocks A.nr A.b fun j => A.L.entry a j * x.get j,
          ← sum_range_blocks A.nr A.b fun j => A.U.entry a j * x.get j]
        rw [sum_eq_zero, sum_eq_zero, add_zero, add_zero]
        · intro j hj
          rw [A.U.entry_eq_zero h.uwf (by rw [u2, u4]; omega) (by rw [u3, u5]; simpa using hj), zero_mul]
        · intro j hj
          rw [A.L.entry_eq_zero h.lwf (by rw [l2, l4]; omega) (by rw [l3, l5]; simpa using hj), zero_mul]

theorem Vbr.block_sum {A : Vbr R} (h : A.WF) {bi bc : ℕ} (hbc : bc < A.bnnz) (x : ℕ → R) (a : ℕ) :
    ∑ j ∈ Ico (A.col.get (A.bindex.get bc)) (A.col.get (A.bindex.get bc + 1)),
      (if A.row.get bi ≤ a ∧ a < A.row.get (bi + 1) then
        A.value.get (A.ptr.get bc + (j - A.col.get (A.bindex.get bc)) *
          (A.row.get (bi + 1) - A.row.get bi) + (a - A.row.get bi)) else 0) * x j =
    ∑ j ∈ range A.n, A.blockEntry bi bc a j * x j := by
  have hc := h.col.le_nnz (i := A.bindex.get bc + 1) (h.idx bc hbc)
  have hsub : Ico (A.col.get (A.bindex.get bc)) (A.col.get (A.bindex.get bc + 1)) ⊆ range A.n := by
    intro j hj; simp only [mem_Ico] at hj; simp only [mem_range]; omega
  rw [← sum_subset hsub]
  · refine sum_congr rfl fun j hj => ?_
    simp only [mem_Ico] at hj
    unfold Vbr.blockEntry
    simp only [hj, and_self, and_true]
  · intro j _ hj
    simp only [mem_Ico] at hj
    rw [Vbr.blockEntry, if_neg (fun hh => hj hh.2), zero_mul]

theorem vbrRowAcc_spec (A : Vbr R) (h : A.WF) {bi : ℕ} (hbi : bi < A.nr) (x y : Arr R)
    (hx : A.n ≤ x.size) (hy : A.n ≤ y.size) :
    Ok (vbrRowAcc A bi x y) fun y' => y'.size = y.size ∧ ∀ a, y'.get a = y.get a +
      ∑ bc ∈ Ico (A.bptr.get bi) (A.bptr.get (bi + 1)),
        ∑ j ∈ range A.n, A.blockEntry bi bc a j * x.get j := by
  unfold vbrRowAcc
  have := h.bptr.size; have := h.isz; have := h.psz; have := h.row.size; have := h.col.size
  simp only [Ok_bind, Ok_rd]
  refine ⟨by omega, by omega, ?_⟩
  refine Ok_loop_add (fun bc a => ∑ j ∈ range A.n, A.blockEntry bi bc a j * x.get j) ?_
    (fun y1 h1 h2 => ⟨h1, h2⟩)
  intro bc y1 hbc1 hbc hs1
  have hlt := h.bptr.lt_nnz hbi hbc
  have hix := h.idx bc hlt
  have hc := h.col.le_nnz (i := A.bindex.get bc + 1) hix
  have hr := h.row.le_nnz (i := bi + 1) hbi
  simp only [Ok_bind, Ok_rd]
  refine ⟨by omega, by omega, by omega, by omega, by omega, by omega, ?_⟩
  refine (vbrBlockAcc_spec _ _ _ _ _ _ _ _ (h.row.mono bi hbi) (h.vsz bi hbi bc hbc1 hbc)
    (by omega) (by omega)).mono ?_
  rintro y2 ⟨hs2, h2⟩
  refine ⟨by omega, fun a => ?_⟩
  rw [h2, Vbr.block_sum h hlt]

theorem Vbr.blockEntry_eq_zero {A : Vbr R} (h : A.WF) {bi bc i j : ℕ} (hbi : bi < A.nr)
    (hi : ¬ i < A.n) : A.blockEntry bi bc i j = 0 := by
  rw [Vbr.blockEntry, if_neg]
  intro hh
  have hr := h.row.le_nnz (i := bi + 1) hbi
  omega

/-- C06 VBR (unsplit) -/
theorem matvecVbr_spec (A : Vbr R) (h : A.WF) (x y : Arr R) (hx : A.n ≤ x.size)
    (hy : A.n ≤ y.size) :
    Ok (matvecVbr A x y) fun y' => y'.size = y.size ∧
      IsMul A.n A.n A.entry x.get y'.get ∧ SameFrom A.n y.get y'.get := by
  refine unsplit_of_add hy fun y1 hs => ?_
  refine Ok_loop_add (fun bi a => ∑ bc ∈ Ico (A.bptr.get bi) (A.bptr.get (bi + 1)),
        ∑ j ∈ range A.n, A.blockEntry bi bc a j * x.get j) ?_ ?_
  · intro bi y2 _ hbi hs2
    refine (vbrRowAcc_spec A h hbi x y2 hx (by omega)).mono ?_
    rintro y3 ⟨h1, h2⟩
    exact ⟨by omega, h2⟩
  · intro y2 hs2 h2
    refine ⟨hs2, fun a => ?_⟩
    rw [h2, sum_Ico_zero]
    congr 1
    split
    · simp only [Vbr.entry, sum_mul]
      rw [sum_comm]
      refine sum_congr rfl fun bi _ => ?_
      rw [sum_comm]
    · next ha =>
      refine sum_eq_zero fun bi hbi => sum_eq_zero fun bc _ => sum_eq_zero fun j _ => ?_
      rw [Vbr.blockEntry_eq_zero h (by simpa using hbi) ha, zero_mul]

end mul

section mulH
variable [NonUnitalNonAssocSemiring R] [StarRing R]

theorem padded_of_addH {n n' m : ℕ} {a : ℕ → ℕ → R} {x y : Arr R} {f : Arr R → Option (Arr R)}
    (hn : n ≤ m) (hy : m ≤ y.size)
    (hf : ∀ y1 : Arr R, y1.size = y.size → Ok (f y1) (IsAddMulH n' m a x y1)) :
    Ok (zeroFill n y >>= f) fun y' => y'.size = y.size ∧ IsMulH n' n a x.get y'.get ∧
      SameFrom m y.get y'.get := by
  rw [Ok_bind]
  refine Ok_zeroFill (by omega) fun y1 hs1 hz => (hf y1 hs1).mono ?_
  rintro y2 ⟨hs2, h2⟩
  refine ⟨by omega, fun i hi => ?_, fun i hi => ?_⟩
  · rw [h2, hz, if_pos hi, if_pos (by omega), zero_add]
  · rw [h2, hz, if_neg (by omega), if_neg (by omega), add_zero]

/-- C07 BSR (unsplit): the first `n` elements of the result -/
theorem matvechBsr_spec (A : Bsr R) (h : A.WF) (hnc : A.n ≤ A.nc * A.bnc) (x y : Arr R)
    (hx : A.nr * A.bnr ≤ x.size) (hy : A.nc * A.bnc ≤ y.size) :
    Ok (matvechBsr A x y) fun y' => y'.size = y.size ∧
      IsMulH (A.nr * A.bnr) A.n A.entry x.get y'.get ∧ SameFrom (A.nc * A.bnc) y.get y'.get :=
  padded_of_addH hnc hy fun y1 hs => bsrAllH_spec A h x y1 hx (by omega)

/-- C07 BSR (split) -/
theorem matvechSplitBsr_spec (A : SplitBsr R) (h : A.WF) (x y : Arr R)
    (hx : A.nr * A.b ≤ x.size) (hy : A.nr * A.b ≤ y.size) :
    Ok (matvechSplitBsr A x y) fun y' => y'.size = y.size ∧
      IsMulH (A.nr * A.b) A.n A.entry x.get y'.get ∧ SameFrom (A.nr * A.b) y.get y'.get := by
  obtain ⟨-, l2, l3, l4, l5⟩ := h.l
  obtain ⟨-, u2, u3, u4, u5⟩ := h.u
  refine padded_of_addH h.hn hy fun y1 hs => ?_
  rw [Ok_bind]
  refine (bsrDiagH_spec h.hb A.D x y1 h.dsz hx (by omega)).mono ?_
  rintro y2 ⟨hs2, h2⟩
  refine Ok_loop_add (fun bi a =>
    ∑ r ∈ range A.b, star (A.L.entry (bi * A.b + r) a) * x.get (bi * A.b + r) +
    ∑ r ∈ range A.b, star (A.U.entry (bi * A.b + r) a) * x.get (bi * A.b + r)) ?_ ?_
  · intro bi y3 _ hbi hs3
    rw [Ok_bind]
    refine (bsrRowAccH_spec A.L h.lwf (by omega) x y3 (by rwa [l2, l4]) (by rw [l3, l5]; omega)).mono ?_
    rintro y4 ⟨hs4, h4⟩
    refine (bsrRowAccH_spec A.U h.uwf (by omega) x y4 (by rwa [u2, u4]) (by rw [u3, u5]; omega)).mono ?_
    rintro y5 ⟨hs5, h5⟩
    refine ⟨by omega, fun a => ?_⟩
    rw [h5, h4, l4, u4, add_assoc]
  · intro y3 hs3 h3
    refine ⟨by omega, fun a => ?_⟩
    rw [h3, h2, sum_Ico_zero, sum_add_distrib, add_assoc,
      ← sum_range_blocks A.nr A.b fun i => star (A.L.entry i a) * x.get i,
      ← sum_range_blocks A.nr A.b fun i => star (A.U.entry i a) * x.get i]
    congr 1
    split
    · simp only [SplitBsr.entry, star_add, add_mul, sum_add_distrib, add_assoc]
    · next ha =>
      rw [sum_eq_zero, sum_eq_zero, add_zero, add_zero]
      · intro i hi
        rw [A.U.entry_eq_zero h.uwf (by rw [u2, u4]; simpa using hi) (by rw [u3, u5]; omega), star_zero,
          zero_mul]
      · intro i hi
        rw [A.L.entry_eq_zero h.lwf (by rw [l2, l4]; simpa using hi) (by rw [l3, l5]; omega), star_zero,
          zero_mul]

/-- C07 BSC (unsplit) -/
theorem matvechBsc_spec (A : Bsc R) (h : A.WF) (hnc : A.n ≤ A.nc * A.bnc) (x y : Arr R)
    (hx : A.nr * A.bnr ≤ x.size) (hy : A.nc * A.bnc ≤ y.size) :
    Ok (matvechBsc A x y) fun y' => y'.size = y.size ∧
      IsMulH (A.nr * A.bnr) A.n A.entry x.get y'.get ∧ SameFrom (A.nc * A.bnc) y.get y'.get := by
  refine padded_of_addH hnc hy fun y1 hs => ?_
  have := h.bptr.size; have := h.isz
  refine Ok_loop_add (fun bi a => if a / A.bnc = bi then
    ∑ i ∈ range (A.nr * A.bnr), star (A.entry i a) * x.get i else 0) ?_ ?_
  · intro bi y2 _ hbi hs2
    simp only [Ok_bind, Ok_rd]
    refine ⟨by omega, by omega, ?_⟩
    refine Ok_loop_add (fun bc a => if a / A.bnc = bi then ∑ r ∈ range A.bnr,
        star (A.value.get (bc * (A.bnr * A.bnc) + a % A.bnc * A.bnr + r)) *
          x.get (A.bindex.get bc * A.bnr + r) else 0) ?_ ?_
    · intro bc y3 _ hbc hs3
      have hlt := h.bptr.lt_nnz hbi hbc
      have hix := h.idx bc hlt
      have hv := h.vsz
      have h1 : (bc + 1) * (A.bnr * A.bnc) ≤ A.bnnz * (A.bnr * A.bnc) := Nat.mul_le_mul_right _ hlt
      have h2 : (A.bindex.get bc + 1) * A.bnr ≤ A.nr * A.bnr := Nat.mul_le_mul_right _ hix
      have h3 : (bi + 1) * A.bnc ≤ A.nc * A.bnc := Nat.mul_le_mul_right _ hbi
      rw [Nat.add_mul] at h1 h2 h3
      simp only [Ok_bind, Ok_rd]
      refine ⟨by omega, ?_⟩
      refine (blockAccH_spec _ _ _ _ _ _ _ _ (by omega) (by omega) (by omega)).mono ?_
      rintro y4 ⟨hs4, h4⟩
      refine ⟨by omega, fun a => ?_⟩
      rw [h4]
      congr 1
      simp only [div_iff h.hbc]
      split
      · next ha => rw [sub_div ha]
      · rfl
    · intro y3 hs3 h3
      refine ⟨by omega, fun a => ?_⟩
      rw [h3]
      congr 1
      split
      · next ha =>
        simp only [Bsc.entry, star_sum, sum_mul]
        conv_rhs => rw [sum_comm, ha]
        refine sum_congr rfl fun bc hbc => ?_
        rw [mem_Ico] at hbc
        have hix := h.idx bc (h.bptr.lt_nnz hbi hbc.2)
        symm
        rw [sum_range_blocks A.nr A.bnr fun i => star (if A.bindex.get bc = i / A.bnr then
          A.value.get (bc * (A.bnr * A.bnc) + a % A.bnc * A.bnr + i % A.bnr) else 0) * x.get i,
          sum_eq_single (A.bindex.get bc)]
        · refine sum_congr rfl fun c hc => ?_
          rw [mem_range] at hc
          rw [mul_add_div' hc, mul_add_mod'' hc, if_pos rfl]
        · intro p _ hp
          refine sum_eq_zero fun c hc => ?_
          rw [mem_range] at hc
          rw [mul_add_div' hc, if_neg (fun hh => hp hh.symm), star_zero, zero_mul]
        · intro hh; simp at hh; omega
      · simp
  · intro y2 hs2 h2
    refine ⟨by omega, fun a => ?_⟩
    rw [h2, sum_Ico_zero, sum_ite_eq]
    simp only [mem_range, Nat.div_lt_iff_lt_mul h.hbc]

omit [StarRing R] in
theorem Vbr.blockEntry_eq_zero' {A : Vbr R} (h : A.WF) {bi bc i j : ℕ} (hbc : bc < A.bnnz)
    (hj : ¬ j < A.n) : A.blockEntry bi bc i j = 0 := by
  rw [Vbr.blockEntry, if_neg]
  intro hh
  have hr := h.col.le_nnz (i := A.bindex.get bc + 1) (h.idx bc hbc)
  omega

/-- C07 VBR (unsplit, serial) -/
theorem matvechVbr_spec (A : Vbr R) (h : A.WF) (x y : Arr R) (hx : A.n ≤ x.size)
    (hy : A.n ≤ y.size) :
    Ok (matvechVbr A x y) fun y' => y'.size = y.size ∧
      IsMulH A.n A.n A.entry x.get y'.get ∧ SameFrom A.n y.get y'.get := by
  refine unsplit_of_addH hy fun y1 hs => ?_
  have := h.bptr.size; have := h.isz; have := h.psz; have := h.row.size; have := h.col.size
  refine Ok_loop_add (fun bi a => ∑ bc ∈ Ico (A.bptr.get bi) (A.bptr.get (bi + 1)),
        ∑ i ∈ range A.n, star (A.blockEntry bi bc i a) * x.get i) ?_ ?_
  · intro bi y2 _ hbi hs2
    simp only [Ok_bind, Ok_rd]
    refine ⟨by omega, by omega, ?_⟩
    refine Ok_loop_add (fun bc a => ∑ i ∈ range A.n, star (A.blockEntry bi bc i a) * x.get i) ?_ ?_
    · intro bc y3 hbc1 hbc hs3
      have hlt := h.bptr.lt_nnz hbi hbc
      have hix := h.idx bc hlt
      have hc := h.col.le_nnz (i := A.bindex.get bc + 1) hix
      have hr := h.row.le_nnz (i := bi + 1) hbi
      simp only [Ok_bind, Ok_rd]
      refine ⟨by omega, by omega, by omega, by omega, by omega, by omega, ?_⟩
      refine (vbrBlockAccH_spec _ _ _ _ _ _ _ _ (h.vsz bi hbi bc hbc1 hbc)
        (by omega) (by omega)).mono ?_
      rintro y4 ⟨hs4, h4⟩
      refine ⟨by omega, fun a => ?_⟩
      rw [h4]
      congr 1
      have hsub : Ico (A.row.get bi) (A.row.get (bi + 1)) ⊆ range A.n := by
        intro j hj; simp only [mem_Ico] at hj; simp only [mem_range]; omega
      rw [← sum_subset hsub]
      · refine sum_congr rfl fun j hj => ?_
        simp only [mem_Ico] at hj
        unfold Vbr.blockEntry
        simp only [hj, and_self, true_and]
      · intro j _ hj
        simp only [mem_Ico] at hj
        rw [Vbr.blockEntry, if_neg (fun hh => hj hh.1), star_zero, zero_mul]
    · intro y3 hs3 h3
      exact ⟨by omega, h3⟩
  · intro y2 hs2 h2
    refine ⟨by omega, fun a => ?_⟩
    rw [h2, sum_Ico_zero]
    congr 1
    split
    · simp only [Vbr.entry, star_sum, sum_mul]
      rw [sum_comm]
      refine sum_congr rfl fun bi _ => ?_
      rw [sum_comm]
    · next ha =>
      refine sum_eq_zero fun bi hbi => sum_eq_zero fun bc hbc => sum_eq_zero fun j _ => ?_
      simp only [mem_range, mem_Ico] at hbi hbc
      rw [Vbr.blockEntry_eq_zero' h (h.bptr.lt_nnz hbi hbc.2) ha, star_zero, zero_mul]
end mulH

/-! ### Non-vacuity and defects -/
section examples

/-- 3 × 3 matrix of `Matvec1` in 2 × 2 blocks, padded to 4 × 4 -/
def exBsr : Bsr ℤ := ⟨3, 2, 2, 2, 2, 4, .ofList [0, 2, 4], .ofList [0, 1, 0, 1],
  .ofList [1, 0, 2, 3, 0, 4, 0, 0, 5, 0, 0, 0, 6, 0, 0, 0]⟩
def exBsc : Bsc ℤ := ⟨3, 2, 2, 2, 2, 4, .ofList [0, 2, 4], .ofList [0, 1, 0, 1],
  .ofList [1, 0, 2, 3, 5, 0, 0, 0, 0, 4, 0, 0, 6, 0, 0, 0]⟩
def exSplitBsr : SplitBsr ℤ := ⟨3, 2, 2, .ofList [1, 0, 2, 3, 6, 0, 0, 0],
  ⟨3, 2, 2, 2, 2, 1, .ofList [0, 0, 1], .ofList [0], .ofList [5, 0, 0, 0]⟩,
  ⟨3, 2, 2, 2, 2, 1, .ofList [0, 1, 1], .ofList [1], .ofList [0, 4, 0, 0]⟩⟩
def exSplitBsc : SplitBsc ℤ := ⟨3, 2, 2, .ofList [1, 0, 2, 3, 6, 0, 0, 0],
  ⟨3, 2, 2, 2, 2, 1, .ofList [0, 1, 1], .ofList [1], .ofList [5, 0, 0, 0]⟩,
  ⟨3, 2, 2, 2, 2, 1, .ofList [0, 0, 1], .ofList [0], .ofList [0, 4, 0, 0]⟩⟩
def exVbr : Vbr ℤ := ⟨3, 2, 2, 4, .ofList [0, 2, 3], .ofList [0, 2, 3], .ofList [0, 4, 6, 8, 9],
  .ofList [0, 2, 4], .ofList [0, 1, 0, 1], .ofList [1, 0, 2, 3, 0, 4, 5, 0, 6]⟩
def exX4 : Arr ℤ := .ofList [1, 10, 100, 9]
def exY4 : Arr ℤ := .ofList [7, 7, 7, 7]

theorem exBsr_wf : exBsr.WF := ⟨⟨by decide, by decide, by decide, by decide⟩, by decide, by decide,
  by decide, by decide, by decide, by decide⟩
theorem exBsc_wf : exBsc.WF := ⟨⟨by decide, by decide, by decide, by decide⟩, by decide, by decide,
  by decide, by decide, by decide, by decide⟩
theorem exSplitBsr_wf : exSplitBsr.WF := ⟨by decide, by decide, by decide, by decide, by decide,
  ⟨⟨by decide, by decide, by decide, by decide⟩, by decide, by decide, by decide, by decide,
    by decide, by decide⟩,
  ⟨⟨by decide, by decide, by decide, by decide⟩, by decide, by decide, by decide, by decide,
    by decide, by decide⟩⟩
theorem exSplitBsc_wf : exSplitBsc.WF := ⟨by decide, by decide, by decide, by decide, by decide,
  ⟨⟨by decide, by decide, by decide, by decide⟩, by decide, by decide, by decide, by decide,
    by decide, by decide⟩,
  ⟨⟨by decide, by decide, by decide, by decide⟩, by decide, by decide, by decide, by decide,
    by decide, by decide⟩⟩
theorem exVbr_wf : exVbr.WF := ⟨⟨by decide, by decide, by decide, by decide⟩,
  ⟨by decide, by decide, by decide, by decide⟩, ⟨by decide, by decide, by decide, by decide⟩,
  by decide, by decide, by decide, by
    have : ∀ bi < 2, ∀ bc < 4, exVbr.bptr.get bi ≤ bc → bc < exVbr.bptr.get (bi + 1) →
      exVbr.ptr.get bc + (exVbr.col.get (exVbr.bindex.get bc + 1) - exVbr.col.get (exVbr.bindex.get bc)) *
      (exVbr.row.get (bi + 1) - exVbr.row.get bi) ≤ exVbr.value.size := by decide
    intro bi hbi bc h1 h2
    have hb : bc < 4 := by
      have : ∀ bi < 2, exVbr.bptr.get (bi + 1) ≤ 4 := by decide
      have := this bi hbi; omega
    exact this bi hbi bc hb h1 h2⟩

example : exX4.size = exBsr.nc * exBsr.bnc ∧ exY4.size = exBsr.nr * exBsr.bnr := by decide
example : (lisMatvecBsr exBsr exX4 exY4).map Arr.toList = some [21, 430, 605, 0] := by decide
example : (matvecBsr exBsr exX4 exY4).map Arr.toList = some [21, 430, 605, 7] := by decide
example : (matvecSplitBsr exSplitBsr exX4 exY4).map Arr.toList = some [21, 430, 605, 7] := by decide
example : (matvecSplitBsrU exSplitBsr exX4 exY4).map Arr.toList = some [21, 430, 605, 0] := by decide
example : (matvecBsc exBsc exX4 exY4).map Arr.toList = some [21, 430, 605, 7] := by decide
example : (matvecSplitBsc exSplitBsc exX4 exY4).map Arr.toList = some [21, 430, 605, 0] := by decide
example : (matvecVbr exVbr exX exY).map Arr.toList = some [21, 430, 605, 7] := by decide
/-- hypotheses of `matvecBsrU_oob`: the 3-element vector the API creates for a 3 × 3 matrix -/
example : 0 < exBsr.nr ∧ (Arr.ofList [(7 : ℤ), 7, 7]).size < exBsr.nr * exBsr.bnr := by decide

attribute [local instance] starRingOfComm

/-- C07, a defect of the code: `lis_matvech` on a split BSC matrix does not compute the (conjugate)
transpose product (it swaps the roles of the block indices). -/
theorem matvechSplitBsc_wrong :
    let A : SplitBsc ℤ := ⟨2, 2, 1, .ofList [1, 1],
      ⟨2, 2, 2, 1, 1, 1, .ofList [0, 1, 1], .ofList [1], .ofList [5]⟩,
      ⟨2, 2, 2, 1, 1, 0, .ofList [0, 0, 0], .ofList [], .ofList []⟩⟩
    let x : Arr ℤ := .ofList [1, 10]
    A.WF ∧ (matvechSplitBsc A x x).map Arr.toList = some [1, 15] ∧
      ¬ Ok (matvechSplitBsc A x x) (fun y' => IsMulH 2 2 A.entry x.get y'.get) := by
  intro A x
  refine ⟨⟨by decide, by decide, by decide, by decide, by decide,
  ⟨⟨by decide, by decide, by decide, by decide⟩, by decide, by decide, by decide, by decide,
    by decide, by decide⟩,
  ⟨⟨by decide, by decide, by decide, by decide⟩, by decide, by decide, by decide, by decide,
    by decide, by decide⟩⟩, by decide, ?_⟩
  rintro ⟨y', h1, h2⟩
  have h3 : (matvechSplitBsc A x x).map (fun y => y.get 0) = some 1 := by decide
  rw [h1] at h3
  have h2 := h2 0 (by decide)
  simp only [Option.map_some, Option.some.injEq] at h3
  rw [h3] at h2
  revert h2
  decide

/-- C06, a defect of the code: `lis_matvec` on a split VBR matrix multiplies by the transposes of the
diagonal blocks. -/
theorem matvecSplitVbr_wrong :
    let E : Vbr ℤ := ⟨2, 1, 1, 0, .ofList [0, 2], .ofList [0, 2], .ofList [], .ofList [0, 0], .ofList [],
      .ofList []⟩
    let A : SplitVbr ℤ := ⟨2, 1, @Arr.ofList _ ⟨⟨0, fun _ => 0⟩⟩ [.ofList [1, 3, 2, 4]], E, E⟩
    let x : Arr ℤ := .ofList [1, 10]
    A.WF ∧ A.entry 0 1 = 2 ∧ (matvecSplitVbr A x x).map Arr.toList = some [31, 42] ∧
      ¬ Ok (matvecSplitVbr A x x) (fun y' => IsMul 2 2 A.entry x.get y'.get) := by
  intro E A x
  have ewf : E.WF := ⟨⟨by decide, by decide, by decide, by decide⟩,
    ⟨by decide, by decide, by decide, by decide⟩, ⟨by decide, by decide, by decide, by decide⟩,
    by decide, by decide, by decide, by
      intro bi hbi bc h1 h2
      have : bi = 0 := by simpa [E] using hbi
      subst this
      exact absurd h2 (by have : E.bptr.get (0 + 1) = 0 := by decide
                          omega)⟩
  refine ⟨⟨by decide, ⟨rfl, rfl, rfl⟩, by decide, by decide, ewf, ewf⟩, by decide, by decide, ?_⟩
  rintro ⟨y', h1, h2⟩
  have h3 : (matvecSplitVbr A x x).map (fun y => y.get 0) = some 31 := by decide
  rw [h1] at h3
  have h2 := h2 0 (by decide)
  simp only [Option.map_some, Option.some.injEq] at h3
  rw [h3] at h2
  revert h2
  decide

end examples
end Lis
