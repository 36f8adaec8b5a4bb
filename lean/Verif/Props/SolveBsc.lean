import Verif.Props.SolveBsr
import Verif.Model.SolveBsc
import Verif.Spec.BlockTr

/-!
# C72: splitting and triangular solves of BSC matrices

`lis_matrix_split` puts the blocks above the diagonal into `L`, and `lis_matrix_solve` reads block columns as block rows.
-/

namespace Lis
open Finset
variable {R : Type}

theorem Bsc.WF.rows {A : Bsc R} (h : A.WF) (hb : A.bnr = A.bnc) (hn : A.nr = A.nc) : A.rows.WF :=
  ⟨h.bptr, h.hbr, h.hbc, by have := h.hn; rw [hn] at this; exact this, h.isz, h.vsz, h.idx⟩

theorem SplitBsc.WF.rows {A : SplitBsc R} (h : A.WF) : A.rows.WF := by
  obtain ⟨l1, l2, l3, l4, l5⟩ := h.l
  obtain ⟨u1, u2, u3, u4, u5⟩ := h.u
  exact ⟨h.hb, h.hn, h.dsz, ⟨l1, l3, l2, l4, l5⟩, ⟨u1, u3, u2, u4, u5⟩, h.lwf.rows (by omega) (by omega),
    h.uwf.rows (by omega) (by omega)⟩

section
variable [CommRing R]

theorem Bsc.rows_entry {A : Bsc R} (h : A.WF) (hb : A.bnr = A.bnc) (i j : ℕ) :
    A.rows.entry i j = blockTr A.bnr A.entry i j := by
  have hp := h.hbr
  unfold blockTr Bsr.entry Bsc.entry Bsc.rows
  simp only
  rw [← hb, mul_add_div' (Nat.mod_lt _ hp), mul_add_div' (Nat.mod_lt _ hp), mul_add_mod'' (Nat.mod_lt _ hp),
    mul_add_mod'' (Nat.mod_lt _ hp)]

/-- reading the arrays as block columns again -/
theorem blockTr_blockTr {b : ℕ} (hb : 0 < b) (M : ℕ → ℕ → R) (i j : ℕ) : blockTr b (blockTr b M) i j = M i j := by
  unfold blockTr
  rw [mul_add_div' (Nat.mod_lt _ hb), mul_add_div' (Nat.mod_lt _ hb), mul_add_mod'' (Nat.mod_lt _ hb),
    mul_add_mod'' (Nat.mod_lt _ hb), div_mod_eq, div_mod_eq]

theorem SplitBsc.Swapped.rows {A : SplitBsc R} (hA : A.WF) (hs : A.Swapped) : A.rows.Strict := by
  obtain ⟨l1, l2, l3, l4, l5⟩ := hA.l
  obtain ⟨u1, u2, u3, u4, u5⟩ := hA.u
  have hp := hA.hb
  have blk : ∀ i j, i < A.nr * A.b → i / A.b * A.b + j % A.b < A.nr * A.b := fun i j hi => by
    have h1 : i / A.b < A.nr := (Nat.div_lt_iff_lt_mul hp).2 hi
    exact blk_le h1 (Nat.mod_lt _ hp)
  constructor
  · intro i j hi hij
    show A.L.rows.entry i j = 0
    rw [Bsc.rows_entry hA.lwf (by omega), l4]
    exact hs.low _ _ (blk i j hi) (by
      rw [mul_add_div' (Nat.mod_lt _ hp), mul_add_div' (Nat.mod_lt _ hp)]; exact hij)
  · intro i j hi hij
    show A.U.rows.entry i j = 0
    rw [Bsc.rows_entry hA.uwf (by omega), u4]
    exact hs.up _ _ (blk i j hi) (by
      rw [mul_add_div' (Nat.mod_lt _ hp), mul_add_div' (Nat.mod_lt _ hp)]; exact hij)

end

section
variable [CommRing R]

/-- **C72 (LOWER).** The system that `lis_matrix_solve` solves for a split BSC matrix: the blocks of `L` at the transposed
positions, not transposed themselves. -/
theorem solveLowerBsc_spec (junk : ℕ → R) {A : SplitBsc R} (hA : A.WF) (hs : A.Swapped) {d wd : Arr R}
    (hw : A.nr * (A.b * A.b) ≤ wd.size) (hd : BlockInv A.b A.nr d wd) {b x : ℕ} {h : Vecs R}
    (hb : A.nr * A.b ≤ (h b).value.size) (hx : A.nr * A.b ≤ (h x).value.size) :
    Ok (solveLowerBsc junk A wd b x h) fun h' => OnlyChanged h x (A.nr * A.b) h' ∧
      SolvesTriM (A.nr * A.b) (blockDiag A.b d) (blockTr A.b A.L.entry) (h' x).value.get (h b).value.get := by
  obtain ⟨-, -, -, l4, l5⟩ := hA.l
  refine (solveLowerBsr_spec junk hA.rows (hs.rows hA) hw hd hb hx).mono ?_
  rintro h' ⟨g1, g2⟩
  refine ⟨g1, ?_⟩
  have e : A.rows.L.entry = blockTr A.b A.L.entry := by
    funext i j
    rw [← l4]; exact Bsc.rows_entry hA.lwf (by omega) i j
  rw [e] at g2; exact g2

/-- **C72 (UPPER).** -/
theorem solveUpperBsc_spec (junk : ℕ → R) {A : SplitBsc R} (hA : A.WF) (hs : A.Swapped) {d wd : Arr R}
    (hw : A.nr * (A.b * A.b) ≤ wd.size) (hd : BlockInv A.b A.nr d wd) {b x : ℕ} {h : Vecs R}
    (hb : A.nr * A.b ≤ (h b).value.size) (hx : A.nr * A.b ≤ (h x).value.size) :
    Ok (solveUpperBsc junk A wd b x h) fun h' => OnlyChanged h x (A.nr * A.b) h' ∧
      SolvesTriM (A.nr * A.b) (blockDiag A.b d) (blockTr A.b A.U.entry) (h' x).value.get (h b).value.get := by
  obtain ⟨-, -, -, u4, u5⟩ := hA.u
  refine (solveUpperBsr_spec junk hA.rows (hs.rows hA) hw hd hb hx).mono ?_
  rintro h' ⟨g1, g2⟩
  refine ⟨g1, ?_⟩
  have e : A.rows.U.entry = blockTr A.b A.U.entry := by
    funext i j
    rw [← u4]; exact Bsc.rows_entry hA.uwf (by omega) i j
  rw [e] at g2; exact g2

/-- **C72 (SSOR).** -/
theorem solveSsorBsc_spec (junk : ℕ → R) {A : SplitBsc R} (hA : A.WF) (hs : A.Swapped) {d wd : Arr R}
    (hw : A.nr * (A.b * A.b) ≤ wd.size) (hd : BlockInv A.b A.nr d wd) {b x : ℕ} {h : Vecs R}
    (hb : A.nr * A.b ≤ (h b).value.size) (hx : A.nr * A.b ≤ (h x).value.size) :
    Ok (solveSsorBsc junk A wd b x h) fun h' => OnlyChanged h x (A.nr * A.b) h' ∧
      SolvesSsorM (A.nr * A.b) (blockDiag A.b d) (blockTr A.b A.L.entry) (blockTr A.b A.U.entry)
        (h' x).value.get (h b).value.get := by
  obtain ⟨-, -, -, l4, l5⟩ := hA.l
  obtain ⟨-, -, -, u4, u5⟩ := hA.u
  refine (solveSsorBsr_spec junk hA.rows (hs.rows hA) hw hd hb hx).mono ?_
  rintro h' ⟨g1, g2⟩
  refine ⟨g1, ?_⟩
  have e : A.rows.L.entry = blockTr A.b A.L.entry := by
    funext i j
    rw [← l4]; exact Bsc.rows_entry hA.lwf (by omega) i j
  have e' : A.rows.U.entry = blockTr A.b A.U.entry := by
    funext i j
    rw [← u4]; exact Bsc.rows_entry hA.uwf (by omega) i j
  rw [e, e'] at g2; exact g2

theorem Bsc.Square.rows {A : Bsc R} (h : A.Square) : A.rows.Square := ⟨h.blk, h.num, h.cols⟩

/-- **C72 (split, deviation).** `lis_matrix_split` of a BSC matrix: `L` gets the blocks above the block diagonal and `U`
those below; `D` the block diagonal if it is stored. -/
theorem splitBsc_spec (junk : ℕ → ℕ → ℕ) (vjunk : ℕ → ℕ → R) (djunk : ℕ → R) {A : Bsc R} (h : A.WF) (hs : A.Square)
    (hd : ∀ J, J < A.nc → A.DiagOnce J) :
    Ok (splitBsc junk vjunk djunk A) fun S => S.WF ∧ S.Swapped ∧ S.n = A.n ∧ S.nr = A.nc ∧ S.b = A.bnr ∧
      (∀ i j, j < A.nc * A.bnr → S.L.entry i j = blockUp A.bnr A.entry i j) ∧
      (∀ i j, j < A.nc * A.bnr → S.U.entry i j = blockLow A.bnr A.entry i j) ∧
      (∀ i j, i < A.nc * A.bnr → blockDiag A.bnr S.D i j = blockMid A.bnr A.entry i j) := by
  have hp := h.hbr
  unfold splitBsc
  rw [Ok_bind]
  refine ((splitBsr_spec junk vjunk djunk (h.rows hs.blk hs.num) hs.rows hd).conj
    (splitBsr_parts junk vjunk djunk (h.rows hs.blk hs.num) hs.blk hs.num)).mono ?_
  rintro S ⟨⟨a1, a2, a3, a4, -, -, a7, -⟩, -, -, -, -, -, b6, b7, -⟩
  rw [Ok_pure]
  obtain ⟨l1, l2, l3, l4, l5⟩ := a1.l
  obtain ⟨u1, u2, u3, u4, u5⟩ := a1.u
  have wl : S.L.asBsc.WF := ⟨a1.lwf.bptr, a1.lwf.hbr, a1.lwf.hbc,
    by show S.L.n ≤ S.L.nc * S.L.bnr; rw [l3, ← l2]; exact a1.lwf.hn, a1.lwf.isz, a1.lwf.vsz, a1.lwf.idx⟩
  have wu : S.U.asBsc.WF := ⟨a1.uwf.bptr, a1.uwf.hbr, a1.uwf.hbc,
    by show S.U.n ≤ S.U.nc * S.U.bnr; rw [u3, ← u2]; exact a1.uwf.hn, a1.uwf.isz, a1.uwf.vsz, a1.uwf.idx⟩
  have a4' : S.b = A.bnr := a4
  have key : ∀ {M : Bsc R} (_ : M.WF) (_ : M.bnr = S.b) (_ : M.bnc = S.b) (i j : ℕ),
      M.entry i j = M.rows.entry (j / S.b * S.b + i % S.b) (i / S.b * S.b + j % S.b) := by
    intro M hM e1 e2 i j
    have hq : 0 < S.b := a1.hb
    rw [Bsc.rows_entry hM (by omega), e1]
    exact (blockTr_blockTr hq M.entry i j).symm
  have blk : ∀ i j, j < A.nc * A.bnr → j / A.bnr * A.bnr + i % A.bnr < A.nc * A.bnr := fun i j hj =>
    blk_le ((Nat.div_lt_iff_lt_mul hp).2 hj) (Nat.mod_lt _ hp)
  have kA : ∀ i j, A.rows.entry (j / A.bnr * A.bnr + i % A.bnr) (i / A.bnr * A.bnr + j % A.bnr) = A.entry i j := by
    intro i j
    rw [Bsc.rows_entry h hs.blk]; exact blockTr_blockTr hp A.entry i j
  have eL : ∀ i j, j < A.nc * A.bnr → S.L.asBsc.entry i j = blockUp A.bnr A.entry i j := by
    intro i j hj
    rw [key wl l4 l5 i j, a4']
    refine (b6 _ _ (blk i j hj)).trans ?_
    unfold blockUp
    change (if (i / A.bnr * A.bnr + j % A.bnr) / A.bnr < (j / A.bnr * A.bnr + i % A.bnr) / A.bnr then _ else _) = _
    rw [mul_add_div' (Nat.mod_lt _ hp), mul_add_div' (Nat.mod_lt _ hp), kA]
  have eU : ∀ i j, j < A.nc * A.bnr → S.U.asBsc.entry i j = blockLow A.bnr A.entry i j := by
    intro i j hj
    rw [key wu u4 u5 i j, a4']
    refine (b7 _ _ (blk i j hj)).trans ?_
    unfold blockLow
    change (if (j / A.bnr * A.bnr + i % A.bnr) / A.bnr < (i / A.bnr * A.bnr + j % A.bnr) / A.bnr then _ else _) = _
    rw [mul_add_div' (Nat.mod_lt _ hp), mul_add_div' (Nat.mod_lt _ hp), kA]
  have a3' : S.nr = A.nc := a3
  refine ⟨⟨a1.hb, a1.hn, a1.dsz, ⟨l1, l3, l2, l4, l5⟩, ⟨u1, u3, u2, u4, u5⟩, wl, wu⟩, ⟨?_, ?_⟩, a2, a3, a4, eL, eU, ?_⟩
  · intro i j hj hij
    simp only at hj hij ⊢
    rw [a3', a4'] at hj; rw [a4'] at hij
    rw [eL i j hj, blockUp, if_neg (by omega)]
  · intro i j hj hij
    simp only at hj hij ⊢
    rw [a3', a4'] at hj; rw [a4'] at hij
    rw [eU i j hj, blockLow, if_neg (by omega)]
  · intro i j hi
    refine (a7 i j hi).trans ?_
    unfold Bsr.diagPart blockMid
    change (if i / A.bnr = j / A.bnr then _ else _) = _
    split
    · next e =>
      rw [Bsc.rows_entry h hs.blk, blockTr, e, div_mod_eq, ← e, div_mod_eq]
    · rfl

end

section
variable [Field R]

/-- **C72 (preconditioner).** Creating the SSOR preconditioner with `ssor_omega = w` for a matrix in BSC format and
applying it solves with `M` in the place of the matrix, where block `(I,J)` of `M` is block `(J,I)` of the matrix, not
transposed itself: `(wD+L)(wD)⁻¹(wD+U) x = b`, where `D`, `L`, `U` are the block parts of `M`.  For an order that is a multiple of the block
size: otherwise the padding elements of the last block column take part. -/
theorem ssorBsc_spec (junk : ℕ → ℕ → ℕ) (vjunk : ℕ → ℕ → R) (djunk wjunk sjunk : ℕ → R) (gjunk : ℕ → ℕ → R) {w : R}
    (hw : w ≠ 0) {A : Bsc R} (h : A.WF) (hs : A.Square) (hmul : A.n = A.nc * A.bnr) (hn : 0 < A.n)
    (hd : ∀ J, J < A.nc → A.DiagOnce J) (hm : A.BlockMinors) (b x : ℕ) {v : Vecs R}
    (hb : A.nc * A.bnr ≤ (v b).value.size) (hx : A.nc * A.bnr ≤ (v x).value.size) :
    Ok (ssorBsc junk vjunk djunk wjunk sjunk gjunk w A b x v) fun v' => OnlyChanged v x (A.nc * A.bnr) v' ∧
      let M := blockTr A.bnr A.entry
      SolvesSsorM A.n (fun i j => w * blockMid A.bnr M i j) (blockLow A.bnr M) (blockUp A.bnr M)
        (v' x).value.get (v b).value.get := by
  have e : ssorBsc junk vjunk djunk wjunk sjunk gjunk w A b x v =
      ssorBsr junk vjunk djunk wjunk sjunk gjunk w A.rows b x v := by
    unfold ssorBsc ssorBsr splitBsc
    cases splitBsr junk vjunk djunk A.rows with
    | none => rfl
    | some S => rfl
  rw [e]
  have hM : A.rows.entry = blockTr A.bnr A.entry := funext₂ fun i j => Bsc.rows_entry h hs.blk i j
  refine (ssorBsr_spec junk vjunk djunk wjunk sjunk gjunk hw (A := A.rows) (h.rows hs.blk hs.num) hs.rows
    ⟨?_, ?_⟩ hn hd ?_ b x hb hx).mono ?_
  · change (A.nc - 1) * A.bnr ≤ A.n
    rw [hmul]; exact Nat.mul_le_mul_right _ (Nat.sub_le _ _)
  · intro br hbr bc h1 h2 i j hi hj hor
    exfalso
    have q1 := blk_le (m := A.nc) (b := A.bnr) hbr hi
    have q2 := blk_le (m := A.nc) (b := A.bnr) (p := A.bindex.get bc) (c := j)
      (by rw [← hs.num]; exact h.idx _ (h.bptr.lt_nnz hbr h2)) (by rw [hs.blk]; exact hj)
    rw [← hmul] at q1 q2
    change A.n ≤ br * A.bnr + i ∨ A.n ≤ A.bindex.get bc * A.bnc + j at hor
    rw [← hs.blk] at hor
    omega
  · intro I hI k hk hkn
    have hI' : I < A.nc := hI
    have hk' : k ≤ A.bnr := hk
    have hkn' : I * A.bnr + k ≤ A.n := hkn
    have := hm I hI' k hk' hkn'
    rw [hM]
    change (Matrix.of fun i j : Fin k => blockTr A.bnr A.entry (I * A.bnr + i) (I * A.bnr + j)).det ≠ 0
    have e2 : (Matrix.of fun i j : Fin k => blockTr A.bnr A.entry (I * A.bnr + i) (I * A.bnr + j)) =
        Matrix.of fun i j : Fin k => A.entry (I * A.bnr + i) (I * A.bnr + j) := by
      ext i j
      have hi : (i : ℕ) < A.bnr := by have := i.2; omega
      have hj : (j : ℕ) < A.bnr := by have := j.2; omega
      simp only [Matrix.of_apply, blockTr]
      rw [mul_add_div' hi, mul_add_div' hj, mul_add_mod'' hi, mul_add_mod'' hj]
    rw [e2]; exact this
  · rintro v' ⟨g1, g2⟩
    refine ⟨g1, ?_⟩
    beta_reduce
    rw [← hM]
    exact g2

end

end Lis
