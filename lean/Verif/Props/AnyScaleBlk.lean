import Verif.Props.AnyScale

/-!
# C13 for JAD and the block formats BSR, BSC, VBR
-/

namespace Lis
open Finset
variable {R : Type}

/-! ### JAD -/

theorem jadScale_upd [Mul R] {A : Jad R} (h : A.WF) (w : ℕ → ℕ → R → R)
    {f : ℕ → ℕ → Arr R → Option (Arr R)}
    (hf : ∀ e i z, e < A.maxnzr → A.ptr.get e ≤ i → i < A.ptr.get (e + 1) → z.size = A.value.size →
      Ok (f i (i - A.ptr.get e) z) fun z' => z' = z.set i (w i (i - A.ptr.get e) (z.get i))) :
    Ok (loop 0 A.maxnzr A.value fun j value => do
      let js ← A.ptr.rd j
      let je ← A.ptr.rd (j + 1)
      let (_, value) ← loop js je (0, value) fun i (s : ℕ × Arr R) => do
        let value ← f i s.1 s.2
        pure (s.1 + 1, value)
      pure value) (Upd A.value fun k g => ∃ e, 0 ≤ e ∧ e < A.maxnzr ∧ ∃ i, A.ptr.get e ≤ i ∧
        i < A.ptr.get (e + 1) ∧ k = i ∧ g = w i (i - A.ptr.get e)) := by
  have hps := h.ptr.size
  refine Ok_loop_upd (fun e k g => ∃ i, A.ptr.get e ≤ i ∧ i < A.ptr.get (e + 1) ∧ k = i ∧
    g = w i (i - A.ptr.get e)) ?_ ?_
  · rintro x x' k g g' - h1 - h2 ⟨_, a1, a2, rfl, -⟩ ⟨_, b1, b2, rfl, -⟩
    exact h.ptr.row_unique h1 h2 a1 a2 b1 b2
  · intro e z _ he hz
    simp only [Ok_bind, Ok_rd]
    refine ⟨by omega, by omega, ?_⟩
    refine (Ok_loop_updC (fun i => i - A.ptr.get e) (fun i k g => k = i ∧ g = w i (i - A.ptr.get e))
      (h.ptr.mono e he) (by omega) ?_ ?_).mono ?_
    · rintro x x' k g g' - - - - ⟨rfl, -⟩ ⟨h1, -⟩; exact h1
    · intro i z' i1 i2 hz'
      rw [Ok_bind]
      refine (hf e i z' he i1 i2 (by omega)).mono ?_
      rintro _ rfl
      rw [Ok_pure]
      exact ⟨by simp only; omega, Upd.set z' i _ rfl⟩
    · rintro ⟨c, z'⟩ ⟨-, hz'⟩
      rw [Ok_pure]; exact hz'

theorem Jad.entry_scaled [NonUnitalNonAssocSemiring R] {A : Jad R} {v : Arr R} {i j : ℕ} (w : R)
    (hv : ∀ e, e < A.maxnzr → ∀ k, k < A.ptr.get (e + 1) - A.ptr.get e → A.row.get k = i →
      A.index.get (A.ptr.get e + k) = j → v.get (A.ptr.get e + k) = A.value.get (A.ptr.get e + k) * w) :
    ({ A with value := v } : Jad R).entry i j = A.entry i j * w := by
  unfold Jad.entry
  rw [sum_mul]
  refine sum_congr rfl fun e he => ?_
  rw [sum_mul]
  refine sum_congr rfl fun k hk => ?_
  rw [mem_range] at he hk
  simp only
  split
  · next h => rw [hv e he k hk h.1 h.2]
  · rw [zero_mul]

theorem Jad.WF.value {A : Jad R} (h : A.WF) {v : Arr R} (hv : v.size = A.value.size) :
    ({ A with value := v } : Jad R).WF :=
  ⟨h.ptr, h.len, h.rsz, h.row, h.inj, h.isz, by rw [hv]; exact h.vsz, h.idx⟩

theorem scaleJad_spec [NonUnitalNonAssocSemiring R] {A : Jad R} (h : A.WF) (d : Arr R) (hd : A.n ≤ d.size) :
    Ok (scaleJad A d) fun B => B.WF ∧ B.n = A.n ∧ B.np = A.np ∧ ∀ i j, B.entry i j = A.entry i j * d.get i := by
  have hvs := h.vsz
  have hrs := h.rsz
  unfold scaleJad
  rw [Ok_bind]
  have key := jadScale_upd h (fun i l t => t * d.get (A.row.get l)) (f := fun i l value => do
      let r ← A.row.rd l
      let w ← d.rd r
      mulCell value i w) ?_
  · simp only [bind_assoc] at key
    refine key.mono fun v hv => ?_
    rw [Ok_pure]
    refine ⟨h.value hv.1, rfl, rfl, fun i j => Jad.entry_scaled _ fun e he k hk h1 h2 => ?_⟩
    rw [hv.2.1 _ _ ⟨e, by omega, he, A.ptr.get e + k, by omega, by omega, rfl, rfl⟩, Nat.add_sub_cancel_left, h1]
  · intro e i z he i1 i2 hz
    have := h.len e he
    have := h.row (i - A.ptr.get e) (by omega)
    have := h.ptr.lt_nnz he i2
    simp only [Ok_bind, Ok_rd, Ok_mulCell]
    exact ⟨by omega, by omega, by omega, trivial⟩

theorem scaleSymmJad_spec [NonUnitalSemiring R] {A : Jad R} (h : A.WF) (d : Arr R) (hd : A.n ≤ d.size)
    (hnp : A.np ≤ d.size) :
    Ok (scaleSymmJad A d) fun B => B.WF ∧ B.n = A.n ∧ B.np = A.np ∧
      ∀ i j, B.entry i j = A.entry i j * d.get i * d.get j := by
  have hvs := h.vsz
  have his := h.isz
  have hrs := h.rsz
  unfold scaleSymmJad
  rw [Ok_bind]
  have key := jadScale_upd h (fun i l t => t * (d.get (A.row.get l) * d.get (A.index.get i)))
    (f := fun i l value => do
      let r ← A.row.rd l
      let w ← d.rd r
      let c ← A.index.rd i
      let wc ← d.rd c
      mulCell value i (w * wc)) ?_
  · simp only [bind_assoc] at key
    refine key.mono fun v hv => ?_
    rw [Ok_pure]
    refine ⟨h.value hv.1, rfl, rfl, fun i j => ?_⟩
    rw [mul_assoc]
    refine Jad.entry_scaled _ fun e he k hk h1 h2 => ?_
    rw [hv.2.1 _ _ ⟨e, by omega, he, A.ptr.get e + k, by omega, by omega, rfl, rfl⟩, Nat.add_sub_cancel_left, h1, h2]
  · intro e i z he i1 i2 hz
    have := h.len e he
    have := h.row (i - A.ptr.get e) (by omega)
    have h3 := h.ptr.lt_nnz he i2
    have := h.idx i h3
    simp only [Ok_bind, Ok_rd, Ok_mulCell]
    exact ⟨by omega, by omega, by omega, by omega, by omega, trivial⟩

/-! ### BSR and BSC -/

/-- position within blocks of `r × c` elements stored column by column -/
theorem blk_lt {k m r c i j : ℕ} (hk : k < m) (hi : i < r) (hj : j < c) :
    k * (r * c) + j * r + i < m * (r * c) := by
  have h1 := flat_lt hj hi
  have h2 := flat_lt (m := r * c) hk (j := j * r + i) (by rw [Nat.mul_comm r c]; exact h1)
  omega

theorem blk_inj {k k' r c i i' j j' : ℕ} (hi : i < r) (hj : j < c) (hi' : i' < r) (hj' : j' < c)
    (h : k * (r * c) + j * r + i = k' * (r * c) + j' * r + i') : k = k' ∧ j = j' ∧ i = i' := by
  have h1 := flat_lt hj hi
  have h2 := flat_lt hj' hi'
  rw [Nat.mul_comm c r] at h1 h2
  rw [Nat.add_assoc, Nat.add_assoc] at h
  obtain ⟨h3, h4⟩ := flat_inj h1 h2 h
  obtain ⟨h5, h6⟩ := flat_inj hi hi' h4
  exact ⟨h3, h5, h6⟩

/-- the four nested loops of the BSR and BSC scaling functions -/
theorem blkScale_upd {nr bnr bnc bnnz : ℕ} {bptr : Arr ℕ} {value : Arr R} (h : PtrWF nr bnnz bptr)
    (w : ℕ → ℕ → ℕ → ℕ → R → R) {f : ℕ → ℕ → ℕ → ℕ → Arr R → Option (Arr R)}
    (hf : ∀ bi bj j i z, bi < nr → bptr.get bi ≤ bj → bj < bptr.get (bi + 1) → j < bnc → i < bnr →
      z.size = value.size → Ok (f bi bj j i z) fun z' => z' = z.set (bj * (bnr * bnc) + j * bnr + i)
        (w bi bj j i (z.get (bj * (bnr * bnc) + j * bnr + i)))) :
    Ok (loop 0 nr value fun bi value => do
      let a ← bptr.rd bi
      let b ← bptr.rd (bi + 1)
      loop a b value fun bj value =>
        loop 0 bnc value fun j value =>
          loop 0 bnr value fun i value => f bi bj j i value)
      (Upd value fun k g => ∃ bi, 0 ≤ bi ∧ bi < nr ∧ ∃ bj, bptr.get bi ≤ bj ∧ bj < bptr.get (bi + 1) ∧
        ∃ j, 0 ≤ j ∧ j < bnc ∧ ∃ i, 0 ≤ i ∧ i < bnr ∧ k = bj * (bnr * bnc) + j * bnr + i ∧ g = w bi bj j i) := by
  have hps := h.size
  refine Ok_loop_upd (fun bi k g => ∃ bj, bptr.get bi ≤ bj ∧ bj < bptr.get (bi + 1) ∧
        ∃ j, 0 ≤ j ∧ j < bnc ∧ ∃ i, 0 ≤ i ∧ i < bnr ∧ k = bj * (bnr * bnc) + j * bnr + i ∧ g = w bi bj j i) ?_ ?_
  · rintro x x' k g g' - h1 - h2 ⟨bj, a1, a2, j, -, j1, i, -, i1, rfl, -⟩ ⟨bj', b1, b2, j', -, j1', i', -, i1', h3, -⟩
    obtain ⟨rfl, -, -⟩ := blk_inj i1 j1 i1' j1' h3
    exact h.row_unique h1 h2 a1 a2 b1 b2
  · intro bi z _ hbi hz
    simp only [Ok_bind, Ok_rd]
    refine ⟨by omega, by omega, ?_⟩
    refine Ok_loop_upd (fun bj k g => ∃ j, 0 ≤ j ∧ j < bnc ∧ ∃ i, 0 ≤ i ∧ i < bnr ∧
      k = bj * (bnr * bnc) + j * bnr + i ∧ g = w bi bj j i) ?_ ?_
    · rintro x x' k g g' - - - - ⟨j, -, j1, i, -, i1, rfl, -⟩ ⟨j', -, j1', i', -, i1', h3, -⟩
      exact (blk_inj i1 j1 i1' j1' h3).1
    · intro bj z' hj1 hj2 hz'
      refine Ok_loop_upd (fun j k g => ∃ i, 0 ≤ i ∧ i < bnr ∧
        k = bj * (bnr * bnc) + j * bnr + i ∧ g = w bi bj j i) ?_ ?_
      · rintro x x' k g g' - j1 - j1' ⟨i, -, i1, rfl, -⟩ ⟨i', -, i1', h3, -⟩
        exact (blk_inj i1 j1 i1' j1' h3).2.1
      · intro j z'' _ hj hz''
        exact Ok_loop_upd1 (fun i => bj * (bnr * bnc) + j * bnr + i) (w bi bj j)
          (fun _ _ _ _ _ _ h => by simpa using h) fun i y _ hi hy =>
            hf bi bj j i y hbi hj1 hj2 hj hi (by omega)

theorem Bsr.WF.value {A : Bsr R} (h : A.WF) {v : Arr R} (hv : v.size = A.value.size) :
    ({ A with value := v } : Bsr R).WF :=
  ⟨h.bptr, h.hbr, h.hbc, h.hn, h.isz, by rw [hv]; exact h.vsz, h.idx⟩

theorem Bsc.WF.value {A : Bsc R} (h : A.WF) {v : Arr R} (hv : v.size = A.value.size) :
    ({ A with value := v } : Bsc R).WF :=
  ⟨h.bptr, h.hbr, h.hbc, h.hn, h.isz, by rw [hv]; exact h.vsz, h.idx⟩

theorem div_lt_of_cover {i n r b : ℕ} (hb : 0 < b) (hn : n ≤ r * b) (hi : i < n) : i / b < r :=
  Nat.div_lt_of_lt_mul (by rw [Nat.mul_comm]; omega)

theorem scaleBsr_spec [NonUnitalNonAssocSemiring R] {A : Bsr R} (h : A.WF) (hp : A.Padded) (d : Arr R)
    (hd : A.nr * A.bnr ≤ d.size) :
    Ok (scaleBsr A d) fun B => B.WF ∧ B.Padded ∧ B.n = A.n ∧
      ∀ i j, i < A.n → B.entry i j = A.entry i j * d.get i := by
  have hvs := h.vsz
  unfold scaleBsr
  rw [Ok_bind]
  refine (blkScale_upd h.bptr (fun bi _ _ i t => t * d.get (bi * A.bnr + i)) (f := fun bi bj j i value => do
      let w ← d.rd (bi * A.bnr + i)
      mulCell value (bj * (A.bnr * A.bnc) + j * A.bnr + i) w) ?_).mono fun v hv => ?_
  · intro bi bj j i z hbi b1 b2 hj hi hz
    have h1 := blk_lt (h.bptr.lt_nnz hbi b2) hi hj
    have h2 := flat_lt hbi hi
    simp only [Ok_bind, Ok_rd, Ok_mulCell]
    exact ⟨by omega, by omega, trivial⟩
  · rw [Ok_pure]
    refine ⟨h.value hv.1, ⟨hp.fit, ?_⟩, rfl, fun i j hi => ?_⟩
    · intro br hbr bc b1 b2 i j hi hj ho
      simp only
      rw [hv.2.1 _ _ ⟨br, by omega, hbr, bc, b1, b2, j, by omega, hj, i, by omega, hi, rfl, rfl⟩,
        hp.zero br hbr bc b1 b2 i j hi hj ho, zero_mul]
    · unfold Bsr.entry
      rw [sum_mul]
      refine sum_congr rfl fun bc hbc => ?_
      rw [mem_Ico] at hbc
      simp only
      have hr := div_lt_of_cover h.hbr h.hn hi
      rw [hv.2.1 _ _ ⟨i / A.bnr, Nat.zero_le _, hr, bc, hbc.1, hbc.2, j % A.bnc, Nat.zero_le _, Nat.mod_lt _ h.hbc, i % A.bnr,
        Nat.zero_le _, Nat.mod_lt _ h.hbr, rfl, rfl⟩, Nat.div_add_mod']
      split
      · rfl
      · rw [zero_mul]

theorem scaleSymmBsr_spec [NonUnitalSemiring R] {A : Bsr R} (h : A.WF) (hp : A.Padded) (d : Arr R)
    (hd : A.nr * A.bnr ≤ d.size) (hd' : A.nc * A.bnc ≤ d.size) :
    Ok (scaleSymmBsr A d) fun B => B.WF ∧ B.Padded ∧ B.n = A.n ∧
      ∀ i j, i < A.n → B.entry i j = A.entry i j * d.get i * d.get j := by
  have hvs := h.vsz
  have his := h.isz
  have hps := h.bptr.size
  unfold scaleSymmBsr
  rw [Ok_bind]
  refine (Ok_loop_upd (fun bi k g => ∃ bj, A.bptr.get bi ≤ bj ∧ bj < A.bptr.get (bi + 1) ∧
        ∃ j, 0 ≤ j ∧ j < A.bnc ∧ ∃ i, 0 ≤ i ∧ i < A.bnr ∧ k = bj * (A.bnr * A.bnc) + j * A.bnr + i ∧
          g = fun t => t * (d.get (bi * A.bnr + i) * d.get (A.bindex.get bj * A.bnc + j))) ?_ ?_).mono
            fun v hv => ?_
  · rintro x x' k g g' - h1 - h2 ⟨bj, a1, a2, j, -, j1, i, -, i1, rfl, -⟩ ⟨bj', b1, b2, j', -, j1', i', -, i1', h3, -⟩
    obtain ⟨rfl, -, -⟩ := blk_inj i1 j1 i1' j1' h3
    exact h.bptr.row_unique h1 h2 a1 a2 b1 b2
  · intro bi z _ hbi hz
    simp only [Ok_bind, Ok_rd]
    refine ⟨by omega, by omega, ?_⟩
    refine Ok_loop_upd (fun bj k g => ∃ j, 0 ≤ j ∧ j < A.bnc ∧ ∃ i, 0 ≤ i ∧ i < A.bnr ∧
      k = bj * (A.bnr * A.bnc) + j * A.bnr + i ∧
          g = fun t => t * (d.get (bi * A.bnr + i) * d.get (A.bindex.get bj * A.bnc + j))) ?_ ?_
    · rintro x x' k g g' - - - - ⟨j, -, j1, i, -, i1, rfl, -⟩ ⟨j', -, j1', i', -, i1', h3, -⟩
      exact (blk_inj i1 j1 i1' j1' h3).1
    · intro bj z' hj1 hj2 hz'
      have hb := h.bptr.lt_nnz hbi hj2
      have hc := h.idx bj hb
      simp only [Ok_bind, Ok_rd]
      refine ⟨by omega, ?_⟩
      refine Ok_loop_upd (fun j k g => ∃ i, 0 ≤ i ∧ i < A.bnr ∧
        k = bj * (A.bnr * A.bnc) + j * A.bnr + i ∧
          g = fun t => t * (d.get (bi * A.bnr + i) * d.get (A.bindex.get bj * A.bnc + j))) ?_ ?_
      · rintro x x' k g g' - j1 - j1' ⟨i, -, i1, rfl, -⟩ ⟨i', -, i1', h3, -⟩
        exact (blk_inj i1 j1 i1' j1' h3).2.1
      · intro j z'' _ hj hz''
        refine Ok_loop_upd1 (fun i => bj * (A.bnr * A.bnc) + j * A.bnr + i)
          (fun i t => t * (d.get (bi * A.bnr + i) * d.get (A.bindex.get bj * A.bnc + j)))
          (fun _ _ _ _ _ _ h => by simpa using h) fun i y _ hi hy => ?_
        have h1 := blk_lt hb hi hj
        have h2 := flat_lt hbi hi
        have h3 := flat_lt hc hj
        simp only [Ok_bind, Ok_rd, Ok_mulCell]
        exact ⟨by omega, by omega, by omega, trivial⟩
  · rw [Ok_pure]
    refine ⟨h.value hv.1, ⟨hp.fit, ?_⟩, rfl, fun i j hi => ?_⟩
    · intro br hbr bc b1 b2 i j hi hj ho
      simp only
      rw [hv.2.1 _ _ ⟨br, by omega, hbr, bc, b1, b2, j, by omega, hj, i, by omega, hi, rfl, rfl⟩,
        hp.zero br hbr bc b1 b2 i j hi hj ho, zero_mul]
    · unfold Bsr.entry
      rw [mul_assoc, sum_mul]
      refine sum_congr rfl fun bc hbc => ?_
      rw [mem_Ico] at hbc
      simp only
      have hr := div_lt_of_cover h.hbr h.hn hi
      rw [hv.2.1 _ _ ⟨i / A.bnr, Nat.zero_le _, hr, bc, hbc.1, hbc.2, j % A.bnc, Nat.zero_le _, Nat.mod_lt _ h.hbc, i % A.bnr,
        Nat.zero_le _, Nat.mod_lt _ h.hbr, rfl, rfl⟩, Nat.div_add_mod']
      split
      · next hb => rw [hb, Nat.div_add_mod']
      · rw [zero_mul]

/-- what `lis_matrix_scale_bsc` really does (square blocks): element `(i,j)` is multiplied by the factor of the row at
position `i mod b` of the block *column* of `j` -/
theorem scaleBsc_effect [NonUnitalNonAssocSemiring R] {A : Bsc R} (h : A.WF) (hp : A.Padded) (hsq : A.nr = A.nc)
    (d : Arr R) (hd : A.nr * A.bnr ≤ d.size) :
    Ok (scaleBsc A d) fun B => B.WF ∧ B.Padded ∧ B.n = A.n ∧
      ∀ i j, j < A.n → B.entry i j = A.entry i j * d.get (j / A.bnc * A.bnr + i % A.bnr) := by
  have hvs := h.vsz
  unfold scaleBsc
  rw [Ok_bind]
  refine (blkScale_upd (hsq ▸ h.bptr) (fun bi _ _ i t => t * d.get (bi * A.bnr + i)) (f := fun bi bj j i value => do
      let w ← d.rd (bi * A.bnr + i)
      mulCell value (bj * (A.bnr * A.bnc) + j * A.bnr + i) w) ?_).mono fun v hv => ?_
  · intro bi bj j i z hbi b1 b2 hj hi hz
    have h1 := blk_lt (h.bptr.lt_nnz (by omega) b2) hi hj
    have h2 := flat_lt hbi hi
    simp only [Ok_bind, Ok_rd, Ok_mulCell]
    exact ⟨by omega, by omega, trivial⟩
  · rw [Ok_pure]
    refine ⟨h.value hv.1, ⟨hp.cover, hp.fit, ?_⟩, rfl, fun i j hj => ?_⟩
    · intro br hbr bc b1 b2 i j hi hj ho
      simp only
      rw [hv.2.1 _ _ ⟨br, by omega, by simp only at hbr; omega, bc, b1, b2, j, by omega, hj, i, by omega, hi, rfl, rfl⟩,
        hp.zero br hbr bc b1 b2 i j hi hj ho, zero_mul]
    · unfold Bsc.entry
      rw [sum_mul]
      refine sum_congr rfl fun bc hbc => ?_
      rw [mem_Ico] at hbc
      simp only
      have hr := div_lt_of_cover h.hbc hp.cover hj
      rw [hv.2.1 _ _ ⟨j / A.bnc, Nat.zero_le _, by omega, bc, hbc.1, hbc.2, j % A.bnc, Nat.zero_le _, Nat.mod_lt _ h.hbc,
        i % A.bnr, Nat.zero_le _, Nat.mod_lt _ h.hbr, rfl, rfl⟩]
      split
      · rfl
      · rw [zero_mul]

/-- what `lis_matrix_scale_symm_bsc` really does (square blocks of size `b`): the two factors are those of row
`i mod b` of the block of `j` and of row `j mod b` of the block of `i` -/
theorem scaleSymmBsc_effect [NonUnitalSemiring R] {A : Bsc R} (h : A.WF) (hp : A.Padded) (hsq : A.nr = A.nc)
    (hb : A.bnr = A.bnc) (d : Arr R) (hd : A.nr * A.bnr ≤ d.size) :
    Ok (scaleSymmBsc A d) fun B => B.WF ∧ B.Padded ∧ B.n = A.n ∧
      ∀ i j, j < A.n → B.entry i j = A.entry i j * d.get (j / A.bnc * A.bnr + i % A.bnr) *
        d.get (i / A.bnr * A.bnc + j % A.bnc) := by
  have hvs := h.vsz
  have his := h.isz
  have hps := h.bptr.size
  have hd' : A.nr * A.bnc ≤ d.size := by rw [← hb]; exact hd
  unfold scaleSymmBsc
  rw [Ok_bind]
  refine (Ok_loop_upd (fun bi k g => ∃ bj, A.bptr.get bi ≤ bj ∧ bj < A.bptr.get (bi + 1) ∧
        ∃ j, 0 ≤ j ∧ j < A.bnc ∧ ∃ i, 0 ≤ i ∧ i < A.bnr ∧ k = bj * (A.bnr * A.bnc) + j * A.bnr + i ∧
          g = fun t => t * (d.get (bi * A.bnr + i) * d.get (A.bindex.get bj * A.bnc + j))) ?_ ?_).mono
            fun v hv => ?_
  · rintro x x' k g g' - h1 - h2 ⟨bj, a1, a2, j, -, j1, i, -, i1, rfl, -⟩ ⟨bj', b1, b2, j', -, j1', i', -, i1', h3, -⟩
    obtain ⟨rfl, -, -⟩ := blk_inj i1 j1 i1' j1' h3
    exact h.bptr.row_unique (by omega) (by omega) a1 a2 b1 b2
  · intro bi z _ hbi hz
    simp only [Ok_bind, Ok_rd]
    refine ⟨by omega, by omega, ?_⟩
    refine Ok_loop_upd (fun bj k g => ∃ j, 0 ≤ j ∧ j < A.bnc ∧ ∃ i, 0 ≤ i ∧ i < A.bnr ∧
      k = bj * (A.bnr * A.bnc) + j * A.bnr + i ∧
          g = fun t => t * (d.get (bi * A.bnr + i) * d.get (A.bindex.get bj * A.bnc + j))) ?_ ?_
    · rintro x x' k g g' - - - - ⟨j, -, j1, i, -, i1, rfl, -⟩ ⟨j', -, j1', i', -, i1', h3, -⟩
      exact (blk_inj i1 j1 i1' j1' h3).1
    · intro bj z' hj1 hj2 hz'
      have hb := h.bptr.lt_nnz (i := bi) (by omega) hj2
      have hc := h.idx bj hb
      simp only [Ok_bind, Ok_rd]
      refine ⟨by omega, ?_⟩
      refine Ok_loop_upd (fun j k g => ∃ i, 0 ≤ i ∧ i < A.bnr ∧
        k = bj * (A.bnr * A.bnc) + j * A.bnr + i ∧
          g = fun t => t * (d.get (bi * A.bnr + i) * d.get (A.bindex.get bj * A.bnc + j))) ?_ ?_
      · rintro x x' k g g' - j1 - j1' ⟨i, -, i1, rfl, -⟩ ⟨i', -, i1', h3, -⟩
        exact (blk_inj i1 j1 i1' j1' h3).2.1
      · intro j z'' _ hj hz''
        refine Ok_loop_upd1 (fun i => bj * (A.bnr * A.bnc) + j * A.bnr + i)
          (fun i t => t * (d.get (bi * A.bnr + i) * d.get (A.bindex.get bj * A.bnc + j)))
          (fun _ _ _ _ _ _ h => by simpa using h) fun i y _ hi hy => ?_
        have h1 := blk_lt hb hi hj
        have h2 := flat_lt hbi hi
        have h3 := flat_lt hc hj
        simp only [Ok_bind, Ok_rd, Ok_mulCell]
        exact ⟨by omega, by omega, by omega, trivial⟩
  · rw [Ok_pure]
    refine ⟨h.value hv.1, ⟨hp.cover, hp.fit, ?_⟩, rfl, fun i j hj => ?_⟩
    · intro br hbr bc b1 b2 i j hi hj ho
      simp only
      rw [hv.2.1 _ _ ⟨br, by omega, by simp only at hbr; omega, bc, b1, b2, j, by omega, hj, i, by omega, hi, rfl, rfl⟩,
        hp.zero br hbr bc b1 b2 i j hi hj ho, zero_mul]
    · unfold Bsc.entry
      rw [mul_assoc, sum_mul]
      refine sum_congr rfl fun bc hbc => ?_
      rw [mem_Ico] at hbc
      simp only
      have hr := div_lt_of_cover h.hbc hp.cover hj
      rw [hv.2.1 _ _ ⟨j / A.bnc, Nat.zero_le _, by omega, bc, hbc.1, hbc.2, j % A.bnc, Nat.zero_le _, Nat.mod_lt _ h.hbc,
        i % A.bnr, Nat.zero_le _, Nat.mod_lt _ h.hbr, rfl, rfl⟩]
      split
      · next hb => rw [hb]
      · rw [zero_mul]

end Lis
