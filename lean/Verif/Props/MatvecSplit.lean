import Verif.Model.MatvecSplit
import Verif.Lemmas.ConvertVbr
import Verif.Props.Matvec1
import Verif.Props.Matvec3
import Verif.Props.Array
import Mathlib.Tactic.IntervalCases

/-!
# C06, C07 — split MSR, split VBR

Split VBR is where the code departs from the mathematics: it multiplies by the transposes of the diagonal blocks
(`lis_matvec`) and by the unconjugated, untransposed blocks (serial `lis_matvech`).  The theorems say exactly what is
computed, and that it is the product when the diagonal blocks are symmetric (Hermitian).
-/

namespace Lis
open Finset
variable {R : Type}

section mul
variable [NonUnitalNonAssocSemiring R]

theorem Msr.off_sum {A : Msr R} (h : A.WF) (x : ℕ → R) {i : ℕ} (hi : i < A.n) :
    ∑ k ∈ Ico (A.index.get i) (A.index.get (i + 1)), A.value.get k * x (A.index.get k) =
      ∑ j ∈ range A.n, A.off i j * x j := by
  have hr := h.range hi
  unfold Msr.off
  simp only [sum_mul]
  rw [sum_comm]
  refine sum_congr rfl fun k hk => ?_
  rw [mem_Ico] at hk
  have := h.idx k (by omega) (by omega)
  rw [sum_eq_single (A.index.get k)]
  · rw [if_pos rfl]
  · intro b _ hb; rw [if_neg (Ne.symm hb), zero_mul]
  · intro hn; simp at hn; omega

/-- **C06 (split MSR).** -/
theorem matvecSplitMsr_spec (A : SplitMsr R) (h : A.WF) (x y : Arr R) (hx : A.n ≤ x.size) (hy : A.n ≤ y.size) :
    Ok (matvecSplitMsr A x y) fun y' => y'.size = y.size ∧
      IsMul A.n A.n A.entry x.get y'.get ∧ SameFrom A.n y.get y'.get := by
  have hln := h.ln
  have hun := h.un
  have hds := h.dsz
  have l1 := h.lwf.isz
  have l2 := h.lwf.vsz
  have u1 := h.uwf.isz
  have u2 := h.uwf.vsz
  unfold matvecSplitMsr
  refine Ok_loop_fill (fun i => ∑ j ∈ range A.n, A.entry i j * x.get j) ?_ ?_
  · intro i y' _ hi hsz _ _
    have hl := h.lwf.range (i := i) (by omega)
    have hu := h.uwf.range (i := i) (by omega)
    simp only [Ok_bind, Ok_rd, Ok_wr]
    refine ⟨by omega, by omega, by omega, by omega, Ok_accRow (fun k hk1 hk2 => ?_) ⟨by omega, by omega,
      Ok_accRow (fun k hk1 hk2 => ?_) ⟨by omega, ?_⟩⟩⟩
    · have := h.lwf.idx k (by omega) (by omega); omega
    · have := h.uwf.idx k (by omega) (by omega); omega
    · rw [Msr.off_sum h.lwf x.get (by omega), Msr.off_sum h.uwf x.get (by omega), hln, hun]
      congr 1
      simp only [SplitMsr.entry, add_mul, sum_add_distrib, ite_mul, zero_mul]
      rw [sum_ite_eq, if_pos (by simpa using hi)]
  · intro y' h1 h2 h3
    exact ⟨h1, fun i hi => h2 i (by omega) hi, fun i hi => h3 i (by omega)⟩

/-- a row of a block-diagonal product -/
theorem blockDiagV_sum {nr n : ℕ} {row : Arr ℕ} (hp : PtrWF nr n row) (e : ℕ → ℕ → ℕ → R) (x : ℕ → R) {b i : ℕ} (hb : b < nr)
    (hi : i < row.get (b + 1) - row.get b) :
    ∑ j ∈ range n, blockDiagV nr row e (row.get b + i) j * x j =
      ∑ j ∈ range (row.get (b + 1) - row.get b), e b i j * x (row.get b + j) := by
  have hle := hp.le_nnz (i := b + 1) hb
  have hone : ∀ j, blockDiagV nr row e (row.get b + i) j =
      if row.get b ≤ j ∧ j < row.get (b + 1) then e b i (j - row.get b) else 0 := by
    intro j
    unfold blockDiagV
    rw [sum_eq_single b]
    · rw [Nat.add_sub_cancel_left]
      exact if_congr ⟨fun hh => hh.2, fun hh => ⟨⟨by omega, by omega⟩, hh⟩⟩ rfl rfl
    · intro c hc hcb
      rw [mem_range] at hc
      refine if_neg fun hh => hcb ?_
      exact hp.unique hc hb hh.1.1 hh.1.2 (by omega) (by omega)
    · intro hn; simp at hn; omega
  simp only [hone, ite_mul, zero_mul]
  rw [← sum_filter]
  have hf : (range n).filter (fun j => row.get b ≤ j ∧ j < row.get (b + 1)) = Ico (row.get b) (row.get (b + 1)) := by
    ext j; simp only [mem_filter, mem_range, mem_Ico]; omega
  rw [hf, sum_Ico_eq_sum_range]
  exact sum_congr rfl fun j _ => by rw [Nat.add_sub_cancel_left]

/-- a loop over block rows that overwrites the rows of each block with a block-diagonal product -/
theorem Ok_blockDiag {nr n : ℕ} {row : Arr ℕ} (hp : PtrWF nr n row) (e : ℕ → ℕ → ℕ → R) {x y : Arr R}
    {f : ℕ → Arr R → Option (Arr R)}
    (hf : ∀ b y1, b < nr → y1.size = y.size → Ok (f b y1) fun y2 => y2.size = y.size ∧
      (∀ i, i < row.get (b + 1) - row.get b →
        y2.get (row.get b + i) = ∑ j ∈ range (row.get (b + 1) - row.get b), e b i j * x.get (row.get b + j)) ∧
      ∀ a, ¬ (row.get b ≤ a ∧ a < row.get (b + 1)) → y2.get a = y1.get a) :
    Ok (loop 0 nr y f) fun y' => y'.size = y.size ∧ ∀ a, y'.get a =
      if a < n then ∑ j ∈ range n, blockDiagV nr row e a j * x.get j else y.get a := by
  refine Ok_loop_le (fun b (y1 : Arr R) => y1.size = y.size ∧ ∀ a, y1.get a =
      if a < row.get b then ∑ j ∈ range n, blockDiagV nr row e a j * x.get j else y.get a) (Nat.zero_le _)
    ⟨rfl, fun a => by rw [hp.zero, if_neg (by omega)]⟩ ?_ ?_
  · rintro b y1 _ hb ⟨h1, h2⟩
    refine (hf b y1 hb h1).mono ?_
    rintro y2 ⟨s2, g1, g2⟩
    have hm := hp.mono b hb
    refine ⟨s2, fun a => ?_⟩
    by_cases ha : row.get b ≤ a ∧ a < row.get (b + 1)
    · rw [if_pos ha.2]
      have := g1 (a - row.get b) (by omega)
      rw [← blockDiagV_sum hp e x.get hb (by omega), show row.get b + (a - row.get b) = a by omega] at this
      exact this
    · rw [g2 a ha, h2]
      by_cases h3 : a < row.get b
      · rw [if_pos h3, if_pos (by omega)]
      · rw [if_neg h3, if_neg (by omega)]
  · rintro y1 ⟨h1, h2⟩
    refine ⟨h1, fun a => ?_⟩
    rw [h2, hp.last]

/-- what the split VBR kernel multiplies by: the diagonal blocks transposed -/
def SplitVbr.codeEntry (A : SplitVbr R) (i j : ℕ) : R := A.diagEntry j i + A.L.entry i j + A.U.entry i j

theorem vbr_rows_spec (L U : Vbr R) (n nr : ℕ) (hl : L.WF) (hu : U.WF) (ln : L.n = n) (un : U.n = n) (lr : L.nr = nr)
    (ur : U.nr = nr) (x y : Arr R) (hx : n ≤ x.size) (hy : n ≤ y.size) :
    Ok (loop 0 nr y fun bi y => do
      let y ← vbrRowAcc L bi x y
      vbrRowAcc U bi x y) fun y' => y'.size = y.size ∧ ∀ a, y'.get a = y.get a +
        if a < n then ∑ j ∈ range n, (L.entry a j + U.entry a j) * x.get j else 0 := by
  refine Ok_loop_add (fun bi a => (∑ bc ∈ Ico (L.bptr.get bi) (L.bptr.get (bi + 1)),
        ∑ j ∈ range n, L.blockEntry bi bc a j * x.get j) + ∑ bc ∈ Ico (U.bptr.get bi) (U.bptr.get (bi + 1)),
        ∑ j ∈ range n, U.blockEntry bi bc a j * x.get j) ?_ ?_
  · intro bi y2 _ hbi hs2
    rw [Ok_bind]
    refine (vbrRowAcc_spec L hl (by omega) x y2 (by omega) (by omega)).mono ?_
    rintro y3 ⟨h1, h2⟩
    refine (vbrRowAcc_spec U hu (by omega) x y3 (by omega) (by omega)).mono ?_
    rintro y4 ⟨h3, h4⟩
    refine ⟨by omega, fun j => ?_⟩
    rw [h4, h2, ln, un, add_assoc]
  · intro y2 hs2 h2
    refine ⟨hs2, fun a => ?_⟩
    rw [h2, sum_Ico_zero]
    congr 1
    split
    · simp only [add_mul, sum_add_distrib, Vbr.entry, sum_mul, lr, ur]
      congr 1
      · rw [sum_comm (s := range n)]
        refine sum_congr rfl fun bi _ => ?_
        rw [sum_comm]
      · rw [sum_comm (s := range n)]
        refine sum_congr rfl fun bi _ => ?_
        rw [sum_comm]
    · next ha =>
      refine sum_eq_zero fun bi hbi => ?_
      rw [sum_eq_zero, sum_eq_zero, add_zero]
      · intro bc _
        refine sum_eq_zero fun j _ => ?_
        rw [Vbr.blockEntry_eq_zero hu (by rw [ur]; simpa using hbi) (by omega), zero_mul]
      · intro bc _
        refine sum_eq_zero fun j _ => ?_
        rw [Vbr.blockEntry_eq_zero hl (by rw [lr]; simpa using hbi) (by omega), zero_mul]

/-- **C06 (split VBR), what the code computes.** The product with the diagonal blocks transposed. -/
theorem matvecSplitVbr_spec (A : SplitVbr R) (h : A.WF) (x y : Arr R) (hx : A.n ≤ x.size) (hy : A.n ≤ y.size) :
    Ok (matvecSplitVbr A x y) fun y' => y'.size = y.size ∧
      IsMul A.n A.n A.codeEntry x.get y'.get ∧ SameFrom A.n y.get y'.get := by
  have hp : PtrWF A.nr A.n A.L.row := by have := h.lwf.row; rwa [h.l.1, h.l.2] at this
  have hps := hp.size
  have hds := h.dsz
  unfold matvecSplitVbr
  rw [Ok_bind]
  refine (Ok_blockDiag hp (fun b i j => (A.D.get b).get (i * (A.L.row.get (b + 1) - A.L.row.get b) + j)) (x := x) ?_).mono ?_
  · intro b y1 hb s1
    have hle := hp.le_nnz (i := b + 1) hb
    have hdb := h.dsz' b hb
    have hmo := hp.mono b hb
    simp only [Ok_bind, Ok_rd]
    refine ⟨by omega, by omega, by omega, ?_⟩
    generalize hbn : A.L.row.get (b + 1) - A.L.row.get b = bn at hdb ⊢
    refine Ok_loop_le (fun i (y2 : Arr R) => y2.size = y.size ∧
      (∀ q, q < i → y2.get (A.L.row.get b + q) =
        ∑ j ∈ range bn, (A.D.get b).get (q * bn + j) * x.get (A.L.row.get b + j)) ∧
      ∀ a, ¬ (A.L.row.get b ≤ a ∧ a < A.L.row.get b + i) → y2.get a = y1.get a) (Nat.zero_le _)
      ⟨s1, fun q hq => absurd hq (by omega), fun a _ => rfl⟩ ?_ ?_
    · rintro i y2 _ hi ⟨s2, g1, g2⟩
      rw [Ok_bind]
      refine Ok_loop_sum' (fun j => (A.D.get b).get (i * bn + j) * x.get (A.L.row.get b + j)) ?_ ?_
      · intro j t _ hj
        have := flat_lt hi hj
        simp only [Ok_bind, Ok_rd, Ok_pure]
        exact ⟨by omega, by omega, trivial⟩
      · rw [Ok_wr]
        refine ⟨by omega, by simpa using s2, fun q hq => ?_, fun a ha => ?_⟩
        · rcases Nat.lt_or_ge q i with hlt | hge
          · rw [Arr.set_get_ne _ _ (by omega)]
            exact g1 q hlt
          · obtain rfl : q = i := by omega
            rw [Arr.set_get_self, sum_Ico_zero, zero_add]
        · rw [Arr.set_get_ne _ _ (by omega)]
          exact g2 a (by omega)
    · rintro y2 ⟨s2, g1, g2⟩
      exact ⟨s2, g1, fun a ha => g2 a (by omega)⟩
  · rintro y1 ⟨s1, h1⟩
    refine (vbr_rows_spec A.L A.U A.n A.nr h.lwf h.uwf h.l.1 h.u.1 h.l.2 h.u.2.1 x y1 hx (by omega)).mono ?_
    rintro y2 ⟨s2, h2⟩
    have he : ∀ a j, A.codeEntry a j = blockDiagV A.nr A.L.row
        (fun b i j => (A.D.get b).get (i * (A.L.row.get (b + 1) - A.L.row.get b) + j)) a j + (A.L.entry a j + A.U.entry a j) := by
      intro a j
      rw [SplitVbr.codeEntry, add_assoc]
      congr 1
      unfold SplitVbr.diagEntry blockDiagV
      exact sum_congr rfl fun b _ => if_congr and_comm rfl rfl
    refine ⟨by omega, fun a ha => ?_, fun a ha => ?_⟩
    · rw [h2, h1, if_pos ha, if_pos ha, ← sum_add_distrib]
      exact sum_congr rfl fun j _ => by rw [he]; exact (add_mul _ _ _).symm
    · rw [h2, h1, if_neg (by omega), if_neg (by omega), add_zero]

theorem SplitVbr.diag_symm {A : SplitVbr R} (hs : A.DiagSymm) (i j : ℕ) : A.diagEntry j i = A.diagEntry i j := by
  unfold SplitVbr.diagEntry
  refine sum_congr rfl fun b hb => ?_
  rw [mem_range] at hb
  by_cases hh : (A.L.row.get b ≤ i ∧ i < A.L.row.get (b + 1)) ∧ A.L.row.get b ≤ j ∧ j < A.L.row.get (b + 1)
  · rw [if_pos hh.symm, if_pos hh]
    exact hs b hb _ _ (by omega) (by omega)
  · rw [if_neg fun h => hh h.symm, if_neg hh]

/-- **C06 (split VBR with symmetric diagonal blocks).** -/
theorem matvecSplitVbr_symm (A : SplitVbr R) (h : A.WF) (hs : A.DiagSymm) (x y : Arr R) (hx : A.n ≤ x.size)
    (hy : A.n ≤ y.size) :
    Ok (matvecSplitVbr A x y) fun y' => y'.size = y.size ∧
      IsMul A.n A.n A.entry x.get y'.get ∧ SameFrom A.n y.get y'.get := by
  refine (matvecSplitVbr_spec A h x y hx hy).mono ?_
  rintro y' ⟨h1, h2, h3⟩
  refine ⟨h1, fun i hi => ?_, h3⟩
  rw [h2 i hi]
  refine sum_congr rfl fun j _ => ?_
  rw [SplitVbr.codeEntry, SplitVbr.entry, A.diag_symm hs]

end mul

section mulH
variable [NonUnitalNonAssocSemiring R] [StarRing R]

theorem msr_scatter_spec (L U : Msr R) (n : ℕ) (hl : L.WF) (hu : U.WF) (ln : L.n = n) (un : U.n = n) (x y : Arr R)
    (hx : n ≤ x.size) (hy : n ≤ y.size) :
    Ok (loop 0 n y fun i y => do
      let t ← x.rd i
      let js ← L.index.rd i
      let je ← L.index.rd (i + 1)
      let y ← scatterCol star L.index L.value t js je y
      let js ← U.index.rd i
      let je ← U.index.rd (i + 1)
      scatterCol star U.index U.value t js je y) fun y' => y'.size = y.size ∧
      ∀ j, y'.get j = y.get j + ∑ i ∈ range n, star (L.off i j + U.off i j) * x.get i := by
  have l1 := hl.isz
  have l2 := hl.vsz
  have u1 := hu.isz
  have u2 := hu.vsz
  refine Ok_loop_add (fun i j => star (L.off i j + U.off i j) * x.get i) ?_ ?_
  · intro i y2 _ hi hs2
    have rl := hl.range (i := i) (by omega)
    have ru := hu.range (i := i) (by omega)
    simp only [Ok_bind, Ok_rd]
    refine ⟨by omega, by omega, by omega, Ok_scatterCol (fun k _ hk => ?_) fun y3 hs3 hy3 => ⟨by omega, by omega,
      Ok_scatterCol (fun k _ hk => ?_) fun y4 hs4 hy4 => ⟨by omega, fun j => ?_⟩⟩⟩
    · have := hl.idx k (by omega) (by omega); omega
    · have := hu.idx k (by omega) (by omega); omega
    · rw [hy4, hy3]
      simp only [ite_sum_star_mul]
      rw [star_add, add_mul, ← add_assoc]
      rfl
  · intro y2 hs2 hy2
    exact ⟨hs2, fun j => by rw [hy2, sum_Ico_zero]⟩

theorem Msr.off_out {A : Msr R} (h : A.WF) {i j : ℕ} (hi : i < A.n) (hj : A.n ≤ j) : A.off i j = 0 := by
  have hr := h.range hi
  refine sum_eq_zero fun k hk => if_neg ?_
  rw [mem_Ico] at hk
  have := h.idx k (by omega) (by omega)
  omega

/-- **C07 (split MSR).** -/
theorem matvechSplitMsr_spec (A : SplitMsr R) (h : A.WF) (x y : Arr R) (hx : A.n ≤ x.size) (hy : A.n ≤ y.size) :
    Ok (matvechSplitMsr A x y) fun y' => y'.size = y.size ∧
      IsMulH A.n A.n A.entry x.get y'.get ∧ SameFrom A.n y.get y'.get := by
  have hds := h.dsz
  have hln := h.ln
  have hun := h.un
  unfold matvechSplitMsr
  rw [Ok_bind]
  have hd := Ok_diagFill (c := star) (Q := fun y1 => y1.size = y.size ∧
    (∀ j, y1.get j = if j < A.n then star (A.D.get j) * x.get j else y.get j))
    (n := A.n) (d := A.D) (x := x) (y := y) (by omega) (by omega) hy (fun y' a b => ⟨a, b⟩)
  refine hd.mono ?_
  rintro y1 ⟨hs1, hz⟩
  refine (msr_scatter_spec A.L A.U A.n h.lwf h.uwf h.ln h.un x y1 hx (by omega)).mono ?_
  rintro y2 ⟨hs2, h2⟩
  refine ⟨by omega, fun j hj => ?_, fun j hj => ?_⟩
  · rw [h2, hz, if_pos hj]
    simp only [SplitMsr.entry, star_add, add_mul, sum_add_distrib, apply_ite star, star_zero, ite_mul, zero_mul,
      sum_ite_eq']
    rw [if_pos (by simpa using hj), add_assoc]
  · rw [h2, hz, if_neg (by omega), sum_eq_zero, add_zero]
    intro i hi
    rw [mem_range] at hi
    rw [Msr.off_out h.lwf (by omega) (by omega), Msr.off_out h.uwf (by omega) (by omega), add_zero, star_zero, zero_mul]

theorem vbrRowAccH_spec (A : Vbr R) (h : A.WF) {bi : ℕ} (hbi : bi < A.nr) (x y : Arr R)
    (hx : A.n ≤ x.size) (hy : A.n ≤ y.size) :
    Ok (vbrRowAccH A bi x y) fun y' => y'.size = y.size ∧ ∀ a, y'.get a = y.get a +
      ∑ bc ∈ Ico (A.bptr.get bi) (A.bptr.get (bi + 1)), ∑ i ∈ range A.n, star (A.blockEntry bi bc i a) * x.get i := by
  unfold vbrRowAccH
  have := h.bptr.size; have := h.isz; have := h.psz; have := h.row.size; have := h.col.size
  simp only [Ok_bind, Ok_rd]
  refine ⟨by omega, by omega, ?_⟩
  refine Ok_loop_add (fun bc a => ∑ i ∈ range A.n, star (A.blockEntry bi bc i a) * x.get i) ?_ (fun y3 hs3 h3 => ⟨hs3, h3⟩)
  intro bc y3 hbc1 hbc hs3
  have hlt := h.bptr.lt_nnz hbi hbc
  have hix := h.idx bc hlt
  have hc := h.col.le_nnz (i := A.bindex.get bc + 1) hix
  have hr := h.row.le_nnz (i := bi + 1) hbi
  simp only [Ok_bind, Ok_rd]
  refine ⟨by omega, by omega, by omega, by omega, by omega, by omega, ?_⟩
  refine (vbrBlockAccH_spec _ _ _ _ _ _ _ _ (h.vsz bi hbi bc hbc1 hbc) (by omega) (by omega)).mono ?_
  rintro y4 ⟨hs4, h4⟩
  refine ⟨by omega, fun a => ?_⟩
  rw [h4]
  congr 1
  have hsub : Ico (A.row.get bi) (A.row.get (bi + 1)) ⊆ range A.n := by
    intro j hj; simp only [mem_Ico] at hj; simp only [mem_range]; omega
  rw [← sum_subset hsub]
  · refine sum_congr rfl fun j hj => ?_
    simp only [mem_Ico] at hj
    unfold Vbr.blockEntry
    simp only [hj, and_self, true_and]
  · intro j _ hj
    simp only [mem_Ico] at hj
    rw [Vbr.blockEntry, if_neg (fun hh => hj hh.1), star_zero, zero_mul]

theorem vbr_rowsH_spec (L U : Vbr R) (n nr : ℕ) (hl : L.WF) (hu : U.WF) (ln : L.n = n) (un : U.n = n) (lr : L.nr = nr)
    (ur : U.nr = nr) (x y : Arr R) (hx : n ≤ x.size) (hy : n ≤ y.size) :
    Ok (loop 0 nr y fun bi y => do
      let y ← vbrRowAccH L bi x y
      vbrRowAccH U bi x y) fun y' => y'.size = y.size ∧ ∀ a, y'.get a = y.get a +
        if a < n then ∑ i ∈ range n, star (L.entry i a + U.entry i a) * x.get i else 0 := by
  refine Ok_loop_add (fun bi a => (∑ bc ∈ Ico (L.bptr.get bi) (L.bptr.get (bi + 1)),
        ∑ i ∈ range n, star (L.blockEntry bi bc i a) * x.get i) + ∑ bc ∈ Ico (U.bptr.get bi) (U.bptr.get (bi + 1)),
        ∑ i ∈ range n, star (U.blockEntry bi bc i a) * x.get i) ?_ ?_
  · intro bi y2 _ hbi hs2
    rw [Ok_bind]
    refine (vbrRowAccH_spec L hl (by omega) x y2 (by omega) (by omega)).mono ?_
    rintro y3 ⟨h1, h2⟩
    refine (vbrRowAccH_spec U hu (by omega) x y3 (by omega) (by omega)).mono ?_
    rintro y4 ⟨h3, h4⟩
    refine ⟨by omega, fun j => ?_⟩
    rw [h4, h2, ln, un, add_assoc]
  · intro y2 hs2 h2
    refine ⟨hs2, fun a => ?_⟩
    rw [h2, sum_Ico_zero]
    congr 1
    split
    · simp only [star_add, add_mul, sum_add_distrib, Vbr.entry, star_sum, sum_mul, lr, ur]
      congr 1
      · rw [sum_comm (s := range n)]
        refine sum_congr rfl fun bi _ => ?_
        rw [sum_comm]
      · rw [sum_comm (s := range n)]
        refine sum_congr rfl fun bi _ => ?_
        rw [sum_comm]
    · next ha =>
      refine sum_eq_zero fun bi hbi => ?_
      rw [mem_range] at hbi
      rw [sum_eq_zero, sum_eq_zero, add_zero]
      · intro bc hbc
        rw [mem_Ico] at hbc
        refine sum_eq_zero fun j _ => ?_
        rw [Vbr.blockEntry_eq_zero' hu (hu.bptr.lt_nnz (by omega) hbc.2) (by omega), star_zero, zero_mul]
      · intro bc hbc
        rw [mem_Ico] at hbc
        refine sum_eq_zero fun j _ => ?_
        rw [Vbr.blockEntry_eq_zero' hl (hl.bptr.lt_nnz (by omega) hbc.2) (by omega), star_zero, zero_mul]

end mulH

section vbrH
variable [NonUnitalNonAssocRing R] [StarRing R]

/-- **C07 (split VBR, serial), what the code computes.** The conjugate transposes of the off-diagonal blocks, but the
diagonal blocks themselves. -/
theorem matvechSplitVbr_spec (A : SplitVbr R) (h : A.WF) (x y : Arr R) (hx : A.n ≤ x.size) (hy : A.n ≤ y.size) :
    Ok (matvechSplitVbr A x y) fun y' => y'.size = y.size ∧
      (∀ a, a < A.n → y'.get a = ∑ i ∈ range A.n, A.diagEntry a i * x.get i +
        ∑ i ∈ range A.n, star (A.L.entry i a + A.U.entry i a) * x.get i) ∧ SameFrom A.n y.get y'.get := by
  have hp : PtrWF A.nr A.n A.L.row := by have := h.lwf.row; rwa [h.l.1, h.l.2] at this
  have hps := hp.size
  have hds := h.dsz
  unfold matvechSplitVbr
  rw [Ok_bind]
  refine (Ok_blockDiag hp (fun b i j => (A.D.get b).get (j * (A.L.row.get (b + 1) - A.L.row.get b) + i)) (x := x) ?_).mono ?_
  · intro b y1 hb s1
    have hle := hp.le_nnz (i := b + 1) hb
    have hdb := h.dsz' b hb
    have hmo := hp.mono b hb
    simp only [Ok_bind, Ok_rd]
    refine ⟨by omega, by omega, by omega, ?_⟩
    refine (arrayMatvec_spec .ins _ (A.D.get b) (x.tail (A.L.row.get b)) (y1.tail (A.L.row.get b)) hdb
      (by simp only [Arr.tail]; omega) (by simp only [Arr.tail]; omega)).mono ?_
    rintro z ⟨z1, z2, z3⟩
    rw [Ok_pure]
    refine ⟨s1, fun i hi => ?_, fun a ha => ?_⟩
    · simp only [Arr.putTail]
      rw [if_neg (by omega), Nat.add_sub_cancel_left]
      have := z2 ⟨i, hi⟩
      simp only [ArrOp.app] at this
      rw [this]
      simp only [Matrix.mulVec, dotProduct, Arr.mat, Arr.vec, Matrix.of_apply, Arr.tail, sum_range]
      exact sum_congr rfl fun j _ => by rw [Nat.add_comm i]
    · simp only [Arr.putTail]
      split
      · rfl
      · rw [z3 _ (by omega)]
        simp only [Arr.tail]
        rw [show A.L.row.get b + (a - A.L.row.get b) = a by omega]
  · rintro y1 ⟨s1, h1⟩
    refine (vbr_rowsH_spec A.L A.U A.n A.nr h.lwf h.uwf h.l.1 h.u.1 h.l.2 h.u.2.1 x y1 hx (by omega)).mono ?_
    rintro y2 ⟨s2, h2⟩
    refine ⟨by omega, fun a ha => ?_, fun a ha => ?_⟩
    · rw [h2, h1, if_pos ha, if_pos ha]
      rfl
    · rw [h2, h1, if_neg (by omega), if_neg (by omega), add_zero]

/-- **C07 (split VBR with Hermitian diagonal blocks, serial).** -/
theorem matvechSplitVbr_herm (A : SplitVbr R) (h : A.WF) (hs : A.DiagHerm) (x y : Arr R) (hx : A.n ≤ x.size)
    (hy : A.n ≤ y.size) :
    Ok (matvechSplitVbr A x y) fun y' => y'.size = y.size ∧
      IsMulH A.n A.n A.entry x.get y'.get ∧ SameFrom A.n y.get y'.get := by
  refine (matvechSplitVbr_spec A h x y hx hy).mono ?_
  rintro y' ⟨h1, h2, h3⟩
  refine ⟨h1, fun a ha => ?_, h3⟩
  have hd : ∀ i, A.diagEntry a i = star (A.diagEntry i a) := by
    intro i
    unfold SplitVbr.diagEntry
    rw [star_sum]
    refine sum_congr rfl fun b hb => ?_
    rw [mem_range] at hb
    by_cases hh : (A.L.row.get b ≤ a ∧ a < A.L.row.get (b + 1)) ∧ A.L.row.get b ≤ i ∧ i < A.L.row.get (b + 1)
    · rw [if_pos hh, if_pos hh.symm]
      exact hs b hb _ _ (by omega) (by omega)
    · rw [if_neg hh, if_neg fun h => hh h.symm, star_zero]
  rw [h2 a ha, ← sum_add_distrib]
  refine sum_congr rfl fun i _ => ?_
  rw [SplitVbr.entry, add_assoc, star_add, hd i]
  simp only [star_add, add_mul]

end vbrH

/-! ### concrete cases -/
section examples
attribute [local instance] starRingOfComm

/-- the matrix [[1,2,0],[0,3,4],[5,0,6]] split -/
def exSplitMsr : SplitMsr ℤ := ⟨3, .ofList [1, 3, 6],
  ⟨3, 1, .ofList [4, 4, 4, 5, 0], .ofList [0, 0, 0, 0, 5]⟩,
  ⟨3, 2, .ofList [4, 5, 6, 6, 1, 2], .ofList [0, 0, 0, 0, 2, 4]⟩⟩

theorem exSplitMsr_wf : exSplitMsr.WF := ⟨by decide, rfl, rfl,
  ⟨by decide, by decide, by decide, by decide, by decide, by decide⟩,
  ⟨by decide, by decide, by decide, by decide, by decide, by decide⟩⟩

example : (matvecSplitMsr exSplitMsr exX exY).map Arr.toList = some [21, 430, 605, 7] := by decide
example : (matvechSplitMsr exSplitMsr exX exY).map Arr.toList = some [501, 32, 640, 7] := by decide
example : exSplitMsr.entry 2 0 = 5 ∧ exSplitMsr.entry 1 2 = 4 ∧ exSplitMsr.entry 2 2 = 6 := by decide

def exEmptyVbr : Vbr ℤ := ⟨2, 1, 1, 0, .ofList [0, 2], .ofList [0, 2], .ofList [], .ofList [0, 0], .ofList [], .ofList []⟩

theorem exEmptyVbr_wf : exEmptyVbr.WF := ⟨⟨by decide, by decide, by decide, by decide⟩,
  ⟨by decide, by decide, by decide, by decide⟩, ⟨by decide, by decide, by decide, by decide⟩,
  by decide, by decide, by decide, by
    intro bi hbi bc h1 h2
    have : bi = 0 := by simpa [exEmptyVbr] using hbi
    subst this
    exact absurd h2 (by have : exEmptyVbr.bptr.get (0 + 1) = 0 := by decide
                        omega)⟩

/-- a 2×2 matrix that is one diagonal block -/
def exSplitVbr (a b c d : ℤ) : SplitVbr ℤ :=
  ⟨2, 1, @Arr.ofList _ ⟨⟨0, fun _ => 0⟩⟩ [.ofList [a, c, b, d]], exEmptyVbr, exEmptyVbr⟩

theorem exSplitVbr_wf (a b c d : ℤ) : (exSplitVbr a b c d).WF :=
  ⟨⟨rfl, rfl⟩, ⟨rfl, rfl, rfl⟩, Nat.le_refl 1, by
    intro bi hbi
    have : bi = 0 := by simpa [exSplitVbr] using hbi
    subst this
    exact Nat.le_refl 4, exEmptyVbr_wf, exEmptyVbr_wf⟩

/-- a symmetric diagonal block meets the hypotheses of `matvecSplitVbr_symm` and `matvechSplitVbr_herm` -/
theorem exSplitVbr_symm (a b d : ℤ) : (exSplitVbr a b b d).DiagSymm := by
  intro bi hbi i j hi hj
  have : bi = 0 := by simpa [exSplitVbr] using hbi
  subst this
  change i < 2 at hi
  change j < 2 at hj
  interval_cases i <;> interval_cases j <;> rfl

example (a b d : ℤ) : (exSplitVbr a b b d).DiagHerm := exSplitVbr_symm a b d

/-- C07, a defect of the code: on a split VBR matrix the serial `lis_matvech` multiplies by the diagonal blocks
themselves, not by their conjugate transposes. -/
theorem matvechSplitVbr_wrong :
    let A := exSplitVbr 1 2 3 4
    let x : Arr ℤ := .ofList [1, 10]
    A.WF ∧ A.entry 0 1 = 2 ∧ (matvechSplitVbr A x x).map Arr.toList = some [21, 43] ∧
      ¬ Ok (matvechSplitVbr A x x) (fun y' => IsMulH 2 2 A.entry x.get y'.get) := by
  intro A x
  refine ⟨exSplitVbr_wf 1 2 3 4, by decide, by decide, ?_⟩
  rintro ⟨y', h1, h2⟩
  have h3 : (matvechSplitVbr A x x).map (fun y => y.get 0) = some 21 := by decide
  rw [h1] at h3
  have h2 := h2 0 (by decide)
  simp only [Option.map_some, Option.some.injEq] at h3
  rw [h3] at h2
  revert h2
  decide

end examples
end Lis
