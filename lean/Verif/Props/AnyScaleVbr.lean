import Verif.Props.AnyScaleBlk
import Verif.Lemmas.Convert2b
import Verif.Lemmas.ConvertVbr

/-!
# C13 for VBR
-/

namespace Lis
open Finset
variable {R : Type}

theorem Vbr.ptr_mono {A : Vbr R} (h : A.WF) (hp : (AnyMat.vbr A).Packed) {a b : ℕ} (hab : a ≤ b) (hb : b ≤ A.bnnz) :
    A.ptr.get a ≤ A.ptr.get b := by
  induction b with
  | zero => simp_all
  | succ b ih =>
    rcases Nat.lt_or_ge a (b + 1) with h' | h'
    · refine (ih (by omega) (by omega)).trans ?_
      obtain ⟨r, h1, h2, h3⟩ := h.bptr.locate (k := b) (by omega)
      have := hp.2 r h1 b h2 h3
      omega
    · rw [show a = b + 1 by omega]

/-- position of element `(i,j)` of block `b` of block row `r` -/
def Vbr.pos (A : Vbr R) (r b i j : ℕ) : ℕ :=
  A.ptr.get b + (j - A.col.get (A.bindex.get b)) * (A.row.get (r + 1) - A.row.get r) + (i - A.row.get r)

/-- element `(i,j)` lies in block `b` of block row `r` -/
structure Vbr.InBlk (A : Vbr R) (r b i j : ℕ) : Prop where
  hr : r < A.nr
  b1 : A.bptr.get r ≤ b
  b2 : b < A.bptr.get (r + 1)
  i1 : A.row.get r ≤ i
  i2 : i < A.row.get (r + 1)
  j1 : A.col.get (A.bindex.get b) ≤ j
  j2 : j < A.col.get (A.bindex.get b + 1)

theorem Vbr.pos_range {A : Vbr R} (hp : (AnyMat.vbr A).Packed) {r b i j : ℕ} (h : A.InBlk r b i j) :
    A.ptr.get b ≤ A.pos r b i j ∧ A.pos r b i j < A.ptr.get (b + 1) := by
  have h1 := hp.2 r h.hr b h.b1 h.b2
  have h2 := flat_lt (i := j - A.col.get (A.bindex.get b)) (n := A.col.get (A.bindex.get b + 1) - A.col.get (A.bindex.get b))
    (j := i - A.row.get r) (m := A.row.get (r + 1) - A.row.get r) (by have := h.j1; have := h.j2; omega)
    (by have := h.i1; have := h.i2; omega)
  unfold Vbr.pos
  omega

theorem Vbr.pos_inj {A : Vbr R} (hA : A.WF) (hp : (AnyMat.vbr A).Packed) {r b i j r' b' i' j' : ℕ}
    (h : A.InBlk r b i j) (h' : A.InBlk r' b' i' j') (he : A.pos r b i j = A.pos r' b' i' j') :
    r = r' ∧ b = b' ∧ i = i' ∧ j = j' := by
  have h1 := Vbr.pos_range hp h
  have h2 := Vbr.pos_range hp h'
  have hb : b = b' := by
    have hb1 := hA.bptr.lt_nnz h.hr h.b2
    have hb2 := hA.bptr.lt_nnz h'.hr h'.b2
    rcases Nat.lt_trichotomy b b' with hl | hl | hl
    · have := Vbr.ptr_mono hA hp (a := b + 1) (b := b') hl (by omega); omega
    · exact hl
    · have := Vbr.ptr_mono hA hp (a := b' + 1) (b := b) hl (by omega); omega
  subst hb
  have hr := hA.bptr.row_unique h.hr h'.hr h.b1 h.b2 h'.b1 h'.b2
  subst hr
  unfold Vbr.pos at he
  have := h.i1; have := h.i2; have := h'.i1; have := h'.i2
  have := h.j1; have := h.j2; have := h'.j1; have := h'.j2
  obtain ⟨h3, h4⟩ := flat_inj (m := A.row.get (r + 1) - A.row.get r) (i := j - A.col.get (A.bindex.get b))
    (i' := j' - A.col.get (A.bindex.get b)) (j := i - A.row.get r) (j' := i' - A.row.get r)
    (by omega) (by omega) (by omega)
  exact ⟨rfl, rfl, by omega, by omega⟩

theorem vbrScale_upd [Mul R] {A : Vbr R} (h : A.WF) (hp : (AnyMat.vbr A).Packed) (w : ℕ → ℕ → R → R)
    {f : ℕ → ℕ → ℕ × Arr R → Option (ℕ × Arr R)}
    (hf : ∀ j i k z, i < A.n → j < A.n → k < A.value.size → z.size = A.value.size →
      Ok (f j i (k, z)) fun s => s.1 = k + 1 ∧ s.2 = z.set k (w j i (z.get k))) :
    Ok (loop 0 A.nr A.value fun bi value => do
      let a ← A.bptr.rd bi
      let k ← A.ptr.rd a
      let b ← A.bptr.rd (bi + 1)
      let (_, value) ← loop a b (k, value) fun bj (s : ℕ × Arr R) => do
        let bjj ← A.bindex.rd bj
        let c0 ← A.col.rd bjj
        let c1 ← A.col.rd (bjj + 1)
        loop c0 c1 s fun j s => do
          let r0 ← A.row.rd bi
          let r1 ← A.row.rd (bi + 1)
          loop r0 r1 s fun i s => f j i s
      pure value) (Upd A.value fun k g => ∃ r b i j, A.InBlk r b i j ∧ k = A.pos r b i j ∧ g = w j i) := by
  have hbs := h.bptr.size
  have hrs := h.row.size
  have hcs := h.col.size
  have his := h.isz
  have hps := hp.1
  have hmain := Ok_loop_upd (lo := 0) (hi := A.nr) (y := A.value) (f := fun bi value => do
      let a ← A.bptr.rd bi
      let k ← A.ptr.rd a
      let b ← A.bptr.rd (bi + 1)
      let (_, value) ← loop a b (k, value) fun bj (s : ℕ × Arr R) => do
        let bjj ← A.bindex.rd bj
        let c0 ← A.col.rd bjj
        let c1 ← A.col.rd (bjj + 1)
        loop c0 c1 s fun j s => do
          let r0 ← A.row.rd bi
          let r1 ← A.row.rd (bi + 1)
          loop r0 r1 s fun i s => f j i s
      pure value) (fun r k g => ∃ b i j, A.InBlk r b i j ∧ k = A.pos r b i j ∧ g = w j i) ?_ ?_
  · refine hmain.mono fun v hv => hv.congr fun k g => ?_
    constructor
    · rintro ⟨r, b, i, j, h1, h2⟩; exact ⟨r, Nat.zero_le _, h1.hr, b, i, j, h1, h2⟩
    · rintro ⟨r, -, -, b, i, j, h1, h2⟩; exact ⟨r, b, i, j, h1, h2⟩
  · rintro r r' k g g' - - - - ⟨b, i, j, h1, rfl, -⟩ ⟨b', i', j', h2, h3, -⟩
    exact (Vbr.pos_inj h hp h1 h2 h3).1
  · intro r z _ hr hz
    have hm := h.bptr.mono r hr
    have hle := h.bptr.le_nnz (i := r + 1) (by omega)
    simp only [Ok_bind, Ok_rd]
    refine ⟨by omega, by omega, by omega, ?_⟩
    refine (Ok_loop_updC (fun b => A.ptr.get b) (fun b k g => ∃ i j, A.InBlk r b i j ∧ k = A.pos r b i j ∧ g = w j i)
      hm rfl ?_ ?_).mono ?_
    · rintro b b' k g g' - - - - ⟨i, j, h1, rfl, -⟩ ⟨i', j', h2, h3, -⟩
      exact (Vbr.pos_inj h hp h1 h2 h3).2.1
    · intro b z' b1 b2 hz'
      have hb := h.bptr.lt_nnz hr b2
      have hc := h.idx b hb
      have hcm := h.col.mono _ hc
      have hcn := h.col.le_nnz (i := A.bindex.get b + 1) (by omega)
      have hrm := h.row.mono _ hr
      have hrn := h.row.le_nnz (i := r + 1) (by omega)
      have hvs := h.vsz r hr b b1 b2
      simp only [Ok_bind, Ok_rd]
      refine ⟨by omega, by omega, by omega, ?_⟩
      refine (Ok_loop_updC (fun j => A.ptr.get b + (j - A.col.get (A.bindex.get b)) *
        (A.row.get (r + 1) - A.row.get r)) (fun j k g => ∃ i, A.InBlk r b i j ∧ k = A.pos r b i j ∧ g = w j i)
        hcm (by simp) ?_ ?_).mono ?_
      · rintro j j' k g g' - - - - ⟨i, h1, rfl, -⟩ ⟨i', h2, h3, -⟩
        exact (Vbr.pos_inj h hp h1 h2 h3).2.2.2
      · intro j z'' j1 j2 hz''
        simp only [Ok_bind, Ok_rd]
        refine ⟨by omega, by omega, ?_⟩
        refine (Ok_loop_updC (fun i => A.ptr.get b + (j - A.col.get (A.bindex.get b)) *
          (A.row.get (r + 1) - A.row.get r) + (i - A.row.get r))
          (fun i k g => k = A.pos r b i j ∧ g = w j i) hrm (by simp) ?_ ?_).mono ?_
        · rintro i i' k g g' i1 i2 i3 i4 ⟨rfl, -⟩ ⟨h3, -⟩
          exact (Vbr.pos_inj h hp ⟨hr, b1, b2, i1, i2, j1, j2⟩ ⟨hr, b1, b2, i3, i4, j1, j2⟩ h3).2.2.1
        · intro i y i1 i2 hy
          have hpos := Vbr.pos_range hp ⟨hr, b1, b2, i1, i2, j1, j2⟩
          have hpk := hp.2 r hr b b1 b2
          have hlt : A.pos r b i j < A.value.size := by omega
          refine (hf j i (A.pos r b i j) y (by omega) (by omega) hlt (by omega)).mono ?_
          rintro ⟨c, y'⟩ ⟨rfl, rfl⟩
          refine ⟨?_, Upd.set y _ _ rfl⟩
          simp only [Vbr.pos]; omega
        · rintro ⟨c, y'⟩ ⟨rfl, hy'⟩
          refine ⟨?_, hy'.congr fun k g => ?_⟩
          · simp only
            rw [Nat.add_assoc, ← Nat.succ_mul, show (j - A.col.get (A.bindex.get b)).succ =
              j + 1 - A.col.get (A.bindex.get b) by omega]
          · constructor
            · rintro ⟨i, h1, h2⟩; exact ⟨i, h1.i1, h1.i2, h2⟩
            · rintro ⟨i, i1, i2, h2⟩; exact ⟨i, ⟨hr, b1, b2, i1, i2, j1, j2⟩, h2⟩
      · rintro ⟨c, y'⟩ ⟨rfl, hy'⟩
        refine ⟨(hp.2 r hr b b1 b2).symm, hy'.congr fun k g => ?_⟩
        constructor
        · rintro ⟨i, j, h1, h2⟩; exact ⟨j, h1.j1, h1.j2, i, h1, h2⟩
        · rintro ⟨j, -, -, i, h1, h2⟩; exact ⟨i, j, h1, h2⟩
    · rintro ⟨c, y'⟩ ⟨-, hy'⟩
      rw [Ok_pure]
      refine hy'.congr fun k g => ?_
      constructor
      · rintro ⟨b, i, j, h1, h2⟩; exact ⟨b, h1.b1, h1.b2, i, j, h1, h2⟩
      · rintro ⟨b, -, -, i, j, h1, h2⟩; exact ⟨b, i, j, h1, h2⟩

theorem Vbr.WF.value {A : Vbr R} (h : A.WF) {v : Arr R} (hv : v.size = A.value.size) :
    ({ A with value := v } : Vbr R).WF :=
  ⟨h.row, h.col, h.bptr, h.isz, h.psz, h.idx, by simp only [hv]; exact h.vsz⟩

theorem Vbr.entry_scaled [NonUnitalNonAssocSemiring R] {A : Vbr R} {v : Arr R} {i j : ℕ} (w : R)
    (hv : ∀ r b, A.InBlk r b i j → v.get (A.pos r b i j) = A.value.get (A.pos r b i j) * w) :
    ({ A with value := v } : Vbr R).entry i j = A.entry i j * w := by
  unfold Vbr.entry
  rw [sum_mul]
  refine sum_congr rfl fun r hr => ?_
  rw [sum_mul]
  refine sum_congr rfl fun b hb => ?_
  rw [mem_range] at hr
  rw [mem_Ico] at hb
  unfold Vbr.blockEntry
  simp only
  split
  · next h => exact hv r b ⟨hr, hb.1, hb.2, h.1.1, h.1.2, h.2.1, h.2.2⟩
  · rw [zero_mul]

theorem scaleVbr_spec [NonUnitalNonAssocSemiring R] {A : Vbr R} (h : A.WF) (hp : (AnyMat.vbr A).Packed) (d : Arr R)
    (hd : A.n ≤ d.size) :
    Ok (scaleVbr A d) fun B => B.WF ∧ B.n = A.n ∧ ∀ i j, B.entry i j = A.entry i j * d.get i := by
  unfold scaleVbr
  rw [Ok_bind]
  refine (vbrScale_upd h hp (fun _ i t => t * d.get i) (f := fun _ i s => do
      let w ← d.rd i
      let value ← mulCell s.2 s.1 w
      pure (s.1 + 1, value)) ?_).mono fun v hv => ?_
  · intro j i k z hi hj hk hz
    simp only [Ok_bind, Ok_rd, Ok_mulCell, Ok_pure]
    exact ⟨by omega, by omega, trivial, trivial⟩
  · rw [Ok_pure]
    refine ⟨h.value hv.1, rfl, fun i j => Vbr.entry_scaled _ fun r b hb => ?_⟩
    rw [hv.2.1 _ _ ⟨r, b, i, j, hb, rfl, rfl⟩]

theorem scaleSymmVbr_spec [NonUnitalSemiring R] {A : Vbr R} (h : A.WF) (hp : (AnyMat.vbr A).Packed) (d : Arr R)
    (hd : A.n ≤ d.size) :
    Ok (scaleSymmVbr A d) fun B => B.WF ∧ B.n = A.n ∧ ∀ i j, B.entry i j = A.entry i j * d.get i * d.get j := by
  unfold scaleSymmVbr
  rw [Ok_bind]
  refine (vbrScale_upd h hp (fun j i t => t * d.get i * d.get j) (f := fun j i s => do
      let v ← s.2.rd s.1
      let wi ← d.rd i
      let wj ← d.rd j
      let value ← s.2.wr s.1 (v * wi * wj)
      pure (s.1 + 1, value)) ?_).mono fun v hv => ?_
  · intro j i k z hi hj hk hz
    simp only [Ok_bind, Ok_rd, Ok_wr, Ok_pure]
    exact ⟨by omega, by omega, by omega, by omega, trivial, trivial⟩
  · rw [Ok_pure]
    refine ⟨h.value hv.1, rfl, fun i j => ?_⟩
    rw [mul_assoc]
    refine Vbr.entry_scaled _ fun r b hb => ?_
    rw [hv.2.1 _ _ ⟨r, b, i, j, hb, rfl, rfl⟩, mul_assoc]

end Lis
