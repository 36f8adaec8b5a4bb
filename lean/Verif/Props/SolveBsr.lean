import Verif.Lemmas.SolveBsr
import Verif.Spec.BlockTri
import Verif.Props.CsrSolve
import Verif.Props.BlockJacobi

/-!
# C67: triangular solves with a split BSR matrix; SSOR on a BSR matrix

`b` and `x` are handles: they may be the same vector.  `wd` is the working block diagonal (`A->WD`), the inverse of a
block diagonal `d`.  All block sizes: 1, 2 and 3 are unrolled in the code, the others use a work array.
-/

namespace Lis
open Finset
variable {R : Type}

theorem BlkUpd.congr {h h' : Vecs R} {x o b : ℕ} {f g : ℕ → R} (a : BlkUpd h x o b f h') (e : ∀ r, r < b → f r = g r) :
    BlkUpd h x o b g h' :=
  ⟨a.other, a.len, a.size, fun r hr => (a.val r hr).trans (e r hr), a.rest⟩

theorem OnlyChanged.blk {h0 h h' : Vecs R} {x i b nr : ℕ} {f : ℕ → R} (a : OnlyChanged h0 x (nr * b) h) (hi : i < nr)
    (c : BlkUpd h x (i * b) b f h') : OnlyChanged h0 x (nr * b) h' := by
  have := Nat.mul_le_mul_right b (show i + 1 ≤ nr from hi)
  rw [Nat.add_mul, Nat.one_mul] at this
  exact ⟨fun w hw => by rw [c.other w hw, a.other w hw], by rw [c.len, a.len], by rw [c.size, a.size],
    fun j hj => by rw [c.rest j (by omega), a.rest j hj]⟩

theorem BlkUpd.same {h h' : Vecs R} {x o b : ℕ} {f : ℕ → R} (c : BlkUpd h x o b f h') (w j : ℕ)
    (hj : ¬ (o ≤ j ∧ j < o + b)) : (h' w).value.get j = (h w).value.get j := by
  by_cases hw : w = x
  · subst hw; exact c.rest j hj
  · rw [c.other w hw]

/-- increasing sweep over block rows: block `i` becomes `F i x`, where `F i` looks only at blocks already computed -/
theorem Ok_blkUp {h0 : Vecs R} {x b nr : ℕ} {body : ℕ → Vecs R → Option (Vecs R)} (F : ℕ → (ℕ → R) → ℕ → R)
    (hF : ∀ i u v, i < nr → (∀ j, j < i * b → u j = v j) → ∀ r, r < b → F i u r = F i v r)
    (hb : ∀ i h, i < nr → OnlyChanged h0 x (nr * b) h → (∀ w j, i * b ≤ j → (h w).value.get j = (h0 w).value.get j) →
      Ok (body i h) (BlkUpd h x (i * b) b (F i (h x).value.get))) {Q : Vecs R → Prop}
    (hq : ∀ h, OnlyChanged h0 x (nr * b) h →
      (∀ i, i < nr → ∀ r, r < b → (h x).value.get (i * b + r) = F i (h x).value.get r) → Q h) :
    Ok (loop 0 nr h0 body) Q := by
  refine Ok_loop_le (fun i h => OnlyChanged h0 x (nr * b) h ∧
    (∀ w j, i * b ≤ j → (h w).value.get j = (h0 w).value.get j) ∧
    ∀ k, k < i → ∀ r, r < b → (h x).value.get (k * b + r) = F k (h x).value.get r) (Nat.zero_le _)
    ⟨OnlyChanged.refl _ _ _, fun _ _ _ => rfl, fun r hr => absurd hr (by omega)⟩ ?_ fun h ⟨a, _, c⟩ => hq h a c
  rintro i h - hi ⟨h1, h2, h3⟩
  refine (hb i h hi h1 h2).mono fun h' hu => ?_
  refine ⟨h1.blk hi hu, fun w j hj => ?_, fun k hk r hr => ?_⟩
  · rw [Nat.add_mul, Nat.one_mul] at hj
    rw [hu.same w j (by omega)]; exact h2 w j (by omega)
  · have hsame : ∀ j, j < i * b → (h' x).value.get j = (h x).value.get j := fun j hj => hu.same x j (by omega)
    have hki := Nat.mul_le_mul_right b (show k ≤ i by omega)
    rw [hF k _ (h x).value.get (by omega) (fun j hj => hsame j (by omega)) r hr]
    by_cases e : k = i
    · subst e; exact hu.val r hr
    · have := Nat.mul_le_mul_right b (show k + 1 ≤ i by omega)
      rw [Nat.add_mul, Nat.one_mul] at this
      rw [hsame _ (by omega)]; exact h3 k (by omega) r hr

/-- decreasing sweep over block rows -/
theorem Ok_blkDown {h0 : Vecs R} {x b nr : ℕ} {body : ℕ → Vecs R → Option (Vecs R)} (F : ℕ → (ℕ → R) → ℕ → R)
    (hF : ∀ i u v, i < nr → (∀ j, i * b + b ≤ j → j < nr * b → u j = v j) → ∀ r, r < b → F i u r = F i v r)
    (hb : ∀ i h, i < nr → OnlyChanged h0 x (nr * b) h →
      (∀ w j, j < i * b + b → (h w).value.get j = (h0 w).value.get j) →
      Ok (body i h) (BlkUpd h x (i * b) b (F i (h x).value.get))) {Q : Vecs R → Prop}
    (hq : ∀ h, OnlyChanged h0 x (nr * b) h →
      (∀ i, i < nr → ∀ r, r < b → (h x).value.get (i * b + r) = F i (h x).value.get r) → Q h) :
    Ok (loopDown 0 nr h0 body) Q := by
  refine Ok_loopDown (fun i h => OnlyChanged h0 x (nr * b) h ∧
    (∀ w j, j < i * b → (h w).value.get j = (h0 w).value.get j) ∧
    ∀ k, i ≤ k → k < nr → ∀ r, r < b → (h x).value.get (k * b + r) = F k (h x).value.get r) (Nat.zero_le _)
    ⟨OnlyChanged.refl _ _ _, fun _ _ _ => rfl, fun r hr => by omega⟩ ?_
    fun h ⟨a, _, c⟩ => hq h a fun i hi => c i (by omega) hi
  rintro i h - hi ⟨h1, h2, h3⟩
  refine (hb i h hi h1 fun w j hj => h2 w j (by rw [Nat.add_mul, Nat.one_mul]; omega)).mono fun h' hu => ?_
  refine ⟨h1.blk hi hu, fun w j hj => ?_, fun k hk hkn r hr => ?_⟩
  · rw [hu.same w j (by omega)]; exact h2 w j (by rw [Nat.add_mul, Nat.one_mul]; omega)
  · have hsame : ∀ j, i * b + b ≤ j → (h' x).value.get j = (h x).value.get j := fun j hj => hu.same x j (by omega)
    have hki := Nat.mul_le_mul_right b (show i ≤ k by omega)
    rw [hF k _ (h x).value.get (by omega) (fun j hj _ => hsame j (by omega)) r hr]
    by_cases e : k = i
    · subst e; exact hu.val r hr
    · have := Nat.mul_le_mul_right b (show i + 1 ≤ k by omega)
      rw [Nat.add_mul, Nat.one_mul] at this
      rw [hsame _ (by omega)]; exact h3 k (by omega) hkn r hr

section
variable [CommRing R]

/-- `L` has entries only left of the diagonal blocks, `U` only right of them -/
structure SplitBsr.Strict (A : SplitBsr R) : Prop where
  low : ∀ i j, i < A.nr * A.b → i / A.b ≤ j / A.b → A.L.entry i j = 0
  up : ∀ i j, i < A.nr * A.b → j / A.b ≤ i / A.b → A.U.entry i j = 0

/-- `d` times (`wd` times `t`) is `t` -/
theorem BlockInv.cancel {b nr : ℕ} {d wd : Arr R} (h : BlockInv b nr d wd) {I : ℕ} (hI : I < nr) {r : ℕ} (hr : r < b)
    (t : ℕ → R) : ∑ c ∈ range b, d.get (I * (b * b) + c * b + r) *
      (∑ k ∈ range b, wd.get (I * (b * b) + k * b + c) * t k) = t r := by
  have e : ∀ c ∈ range b, d.get (I * (b * b) + c * b + r) * (∑ k ∈ range b, wd.get (I * (b * b) + k * b + c) * t k) =
      ∑ k ∈ range b, d.get (I * (b * b) + c * b + r) * wd.get (I * (b * b) + k * b + c) * t k := by
    intro c _
    rw [mul_sum]
    exact sum_congr rfl fun k _ => (mul_assoc _ _ _).symm
  rw [sum_congr rfl e, sum_comm]
  have e2 : ∀ k ∈ range b, ∑ c ∈ range b, d.get (I * (b * b) + c * b + r) * wd.get (I * (b * b) + k * b + c) * t k =
      if r = k then t k else 0 := by
    intro k hk
    rw [← sum_mul, (h I hI r k hr (mem_range.1 hk)).1, ite_mul, one_mul, zero_mul]
  rw [sum_congr rfl e2, sum_ite_eq, if_pos (mem_range.2 hr)]

theorem div_mod_eq (i b : ℕ) : i / b * b + i % b = i := by rw [Nat.mul_comm]; exact Nat.div_add_mod _ _

theorem forwardBsr_spec (junk : ℕ → R) {A : SplitBsr R} (hA : A.WF) (hs : A.Strict) {d wd : Arr R}
    (hw : A.nr * (A.b * A.b) ≤ wd.size) (hd : BlockInv A.b A.nr d wd) {b x : ℕ} {h : Vecs R}
    (hb : A.nr * A.b ≤ (h b).value.size) (hx : A.nr * A.b ≤ (h x).value.size) :
    Ok (solveLowerBsr junk A wd b x h) fun h' => OnlyChanged h x (A.nr * A.b) h' ∧
      SolvesTriM (A.nr * A.b) (blockDiag A.b d) A.L.entry (h' x).value.get (h b).value.get := by
  obtain ⟨-, l2, l3, l4, l5⟩ := hA.l
  have hbp := hA.hb
  have hrow : ∀ i r, i < A.nr → r < A.b → ∀ u, blkDot A.L i r u = ∑ j ∈ range (A.nr * A.b), A.L.entry (i * A.b + r) j * u j := by
    intro i r hi hr u
    rw [blkDot_entry hA.lwf (by omega) (by omega), l3, l4, l5]
  unfold solveLowerBsr
  refine Ok_blkUp (x := x) (b := A.b) (fun i u r => ∑ c ∈ range A.b, wd.get (i * (A.b * A.b) + c * A.b + r) *
    ((h b).value.get (i * A.b + c) + (-1) * blkDot A.L i c u)) ?_ ?_ ?_
  · intro i u v hi huv r hr
    refine sum_congr rfl fun c hc => ?_
    rw [mem_range] at hc
    have hic := blk_le hi hc
    congr 3
    rw [hrow i c hi hc, hrow i c hi hc]
    refine sum_congr rfl fun j _ => ?_
    by_cases hj : j < i * A.b
    · rw [huv j hj]
    · rw [hs.low _ _ hic (by rw [mul_add_div' hc]; exact (Nat.le_div_iff_mul_le hbp).2 (by omega)), zero_mul, zero_mul]
  · intro i h' hi hc hlat
    have s1 := other_size hc b
    have s2 := other_size hc x
    refine (solveRowBsr_spec (s := -1) (fun t u => by ring) (fun _ t => t) (iv := fun r => (h b).value.get (i * A.b + r))
      junk hA.lwf (by omega) (by rw [l2, l4]; exact hw) (by omega) (by rw [l3, l5]; omega) (by rw [l2, l4]; omega)
      fun r hr => ?_).mono fun h2 hu => ?_
    · rw [l4] at hr
      have := blk_le hi hr
      rw [← hlat b _ (by omega)]
      simp only [vrd, Arr.rd]
      rw [if_pos (by omega)]
    · rw [l4] at hu; exact hu
  · intro h' hc he
    refine ⟨hc, fun i hi => ?_⟩
    have hI := div_lt_of hi
    have hr : i % A.b < A.b := Nat.mod_lt _ hbp
    rw [blockDiag_sum hbp d _ hI]
    have := hd.cancel hI hr fun c => (h b).value.get (i / A.b * A.b + c) + (-1) * blkDot A.L (i / A.b) c (h' x).value.get
    rw [sum_congr rfl fun c hc => by rw [he _ hI c (mem_range.1 hc)], this, hrow _ _ hI hr, div_mod_eq]
    ring

/-- **C67 (LOWER).** `lis_matrix_solve` on a split BSR matrix returns `x` with `(d+L) x = b`. -/
theorem solveLowerBsr_spec (junk : ℕ → R) {A : SplitBsr R} (hA : A.WF) (hs : A.Strict) {d wd : Arr R}
    (hw : A.nr * (A.b * A.b) ≤ wd.size) (hd : BlockInv A.b A.nr d wd) {b x : ℕ} {h : Vecs R}
    (hb : A.nr * A.b ≤ (h b).value.size) (hx : A.nr * A.b ≤ (h x).value.size) :
    Ok (solveLowerBsr junk A wd b x h) fun h' => OnlyChanged h x (A.nr * A.b) h' ∧
      SolvesTriM (A.nr * A.b) (blockDiag A.b d) A.L.entry (h' x).value.get (h b).value.get :=
  forwardBsr_spec junk hA hs hw hd hb hx

theorem upRow {A : SplitBsr R} (hA : A.WF) {i r : ℕ} (hi : i < A.nr) (hr : r < A.b) (u : ℕ → R) :
    blkDot A.U i r u = ∑ j ∈ range (A.nr * A.b), A.U.entry (i * A.b + r) j * u j := by
  obtain ⟨-, l2, l3, l4, l5⟩ := hA.u
  rw [blkDot_entry hA.uwf (by omega) (by omega), l3, l4, l5]

theorem upRow_congr {A : SplitBsr R} (hA : A.WF) (hs : A.Strict) {i c : ℕ} (hi : i < A.nr) (hc : c < A.b) {u v : ℕ → R}
    (huv : ∀ j, i * A.b + A.b ≤ j → j < A.nr * A.b → u j = v j) : blkDot A.U i c u = blkDot A.U i c v := by
  have hic := blk_le hi hc
  rw [upRow hA hi hc, upRow hA hi hc]
  refine sum_congr rfl fun j hj => ?_
  rw [mem_range] at hj
  by_cases hj' : i * A.b + A.b ≤ j
  · rw [huv j hj' hj]
  · have : j / A.b < i + 1 := (Nat.div_lt_iff_lt_mul hA.hb).2 (by rw [Nat.add_mul]; omega)
    rw [hs.up _ _ hic (by rw [mul_add_div' hc]; omega), zero_mul, zero_mul]

/-- **C67 (UPPER).** `lis_matrix_solve` on a split BSR matrix returns `x` with `(d+U) x = b`. -/
theorem solveUpperBsr_spec (junk : ℕ → R) {A : SplitBsr R} (hA : A.WF) (hs : A.Strict) {d wd : Arr R}
    (hw : A.nr * (A.b * A.b) ≤ wd.size) (hd : BlockInv A.b A.nr d wd) {b x : ℕ} {h : Vecs R}
    (hb : A.nr * A.b ≤ (h b).value.size) (hx : A.nr * A.b ≤ (h x).value.size) :
    Ok (solveUpperBsr junk A wd b x h) fun h' => OnlyChanged h x (A.nr * A.b) h' ∧
      SolvesTriM (A.nr * A.b) (blockDiag A.b d) A.U.entry (h' x).value.get (h b).value.get := by
  obtain ⟨-, l2, l3, l4, l5⟩ := hA.u
  have hbp := hA.hb
  unfold solveUpperBsr
  refine Ok_blkDown (x := x) (b := A.b) (fun i u r => ∑ c ∈ range A.b, wd.get (i * (A.b * A.b) + c * A.b + r) *
    ((h b).value.get (i * A.b + c) + (-1) * blkDot A.U i c u)) ?_ ?_ ?_
  · intro i u v hi huv r hr
    refine sum_congr rfl fun c hc => ?_
    rw [upRow_congr hA hs hi (mem_range.1 hc) huv]
  · intro i h' hi hc hlat
    have s1 := other_size hc b
    have s2 := other_size hc x
    refine (solveRowBsr_spec (s := -1) (fun t u => by ring) (fun _ t => t) (iv := fun r => (h b).value.get (i * A.b + r))
      junk hA.uwf (by omega) (by rw [l2, l4]; exact hw) (by omega) (by rw [l3, l5]; omega) (by rw [l2, l4]; omega)
      fun r hr => ?_).mono fun h2 hu => ?_
    · rw [l4] at hr
      have := blk_le hi hr
      rw [← hlat b _ (by omega)]
      simp only [vrd, Arr.rd]
      rw [if_pos (by omega)]
    · rw [l4] at hu; exact hu
  · intro h' hc he
    refine ⟨hc, fun i hi => ?_⟩
    have hI := div_lt_of hi
    have hr : i % A.b < A.b := Nat.mod_lt _ hbp
    rw [blockDiag_sum hbp d _ hI]
    have := hd.cancel hI hr fun c => (h b).value.get (i / A.b * A.b + c) + (-1) * blkDot A.U (i / A.b) c (h' x).value.get
    rw [sum_congr rfl fun c hc => by rw [he _ hI c (mem_range.1 hc)], this, upRow hA hI hr, div_mod_eq]
    ring

/-- **C67 (SSOR).** `(d+L) d⁻¹ (d+U) x = b`. -/
theorem solveSsorBsr_spec (junk : ℕ → R) {A : SplitBsr R} (hA : A.WF) (hs : A.Strict) {d wd : Arr R}
    (hw : A.nr * (A.b * A.b) ≤ wd.size) (hd : BlockInv A.b A.nr d wd) {b x : ℕ} {h : Vecs R}
    (hb : A.nr * A.b ≤ (h b).value.size) (hx : A.nr * A.b ≤ (h x).value.size) :
    Ok (solveSsorBsr junk A wd b x h) fun h' => OnlyChanged h x (A.nr * A.b) h' ∧
      SolvesSsorM (A.nr * A.b) (blockDiag A.b d) A.L.entry A.U.entry (h' x).value.get (h b).value.get := by
  obtain ⟨-, l2, l3, l4, l5⟩ := hA.u
  have hbp := hA.hb
  unfold solveSsorBsr
  rw [Ok_bind]
  refine (forwardBsr_spec junk hA hs hw hd hb hx).mono ?_
  rintro h1 ⟨c1, f1⟩
  have c1x := other_size c1 x
  refine Ok_blkDown (x := x) (b := A.b) (fun i u r => (h1 x).value.get (i * A.b + r) -
    ∑ c ∈ range A.b, wd.get (i * (A.b * A.b) + c * A.b + r) * (0 + 1 * blkDot A.U i c u)) ?_ ?_ ?_
  · intro i u v hi huv r hr
    congr 1
    refine sum_congr rfl fun c hc => ?_
    rw [upRow_congr hA hs hi (mem_range.1 hc) huv]
  · intro i h' hi hc hlat
    have s2 := other_size hc x
    refine (solveRowBsr_spec (s := 1) (fun t u => by ring) (fun o t => o - t) (iv := fun _ => 0)
      junk hA.uwf (by omega) (by rw [l2, l4]; exact hw) (by omega) (by rw [l3, l5]; omega) (by rw [l2, l4]; omega)
      fun r hr => rfl).mono fun h2 hu => ?_
    rw [l4] at hu
    refine hu.congr fun r hr => ?_
    rw [hlat x _ (by omega)]
  · intro h' hc he
    refine ⟨c1.trans hc, (h1 x).value.get, f1, fun i hi => ?_⟩
    have hI := div_lt_of hi
    have hr : i % A.b < A.b := Nat.mod_lt _ hbp
    beta_reduce
    rw [blockDiag_sum hbp d _ hI, blockDiag_sum hbp d _ hI]
    have := hd.cancel hI hr fun c => 0 + 1 * blkDot A.U (i / A.b) c (h' x).value.get
    rw [sum_congr rfl fun c hc => by rw [he _ hI c (mem_range.1 hc), mul_sub], sum_sub_distrib, this, upRow hA hI hr,
      div_mod_eq]
    ring

/-- `lis_matrix_diag_scale` -/
theorem diagScaleBlk_spec (a : R) {bn nr : ℕ} {d : Arr R} (hd : nr * (bn * bn) ≤ d.size) :
    Ok (diagScaleBlk a bn nr d) fun d' => d'.size = d.size ∧
      ∀ p, d'.get p = if p < nr * (bn * bn) then a * d.get p else d.get p := by
  unfold diagScaleBlk
  refine Ok_loop_le (fun i (u : Arr R) => u.size = d.size ∧
    ∀ p, u.get p = if p < i * (bn * bn) then a * d.get p else d.get p) (Nat.zero_le _) ⟨rfl, by simp⟩ ?_ fun u hu => hu
  rintro i u - hi ⟨u1, u2⟩
  have h1 := Nat.mul_le_mul_right (bn * bn) (show i + 1 ≤ nr from hi)
  rw [Nat.add_mul, Nat.one_mul] at h1
  refine Ok_loop_le (fun j (v : Arr R) => v.size = d.size ∧
    ∀ p, v.get p = if p < i * (bn * bn) + j then a * d.get p else d.get p) (Nat.zero_le _) ⟨u1, by simpa using u2⟩ ?_ ?_
  · rintro j v - hj ⟨v1, v2⟩
    simp only [Ok_bind, Ok_rd, Ok_wr]
    refine ⟨by omega, by omega, by rw [Arr.set_size]; exact v1, fun p => ?_⟩
    rw [Arr.set_get]
    by_cases e : p = i * (bn * bn) + j
    · rw [if_pos e, v2, if_neg (by omega), if_pos (by omega), e]
    · rw [if_neg e, v2]
      refine if_congr (by omega) rfl rfl
  · rintro v ⟨v1, v2⟩
    refine ⟨v1, fun p => ?_⟩
    rw [v2, Nat.add_mul, Nat.one_mul]

end

section
variable [Field R]

/-- part of `A` left (right) of the diagonal blocks -/
def Bsr.lowPart (A : Bsr R) (i j : ℕ) : R := if j / A.bnr < i / A.bnr then A.entry i j else 0

def Bsr.upPart (A : Bsr R) (i j : ℕ) : R := if i / A.bnr < j / A.bnr then A.entry i j else 0

/-- columns beyond `n` are empty -/
theorem Bsr.entry_pad {A : Bsr R} (h : A.WF) (hp : A.Padded) {i j : ℕ} (hi : i < A.nr * A.bnr) (hj : A.n ≤ j) :
    A.entry i j = 0 := by
  unfold Bsr.entry
  refine sum_eq_zero fun bc hbc => ?_
  rw [mem_Ico] at hbc
  split
  · next e =>
    exact hp.zero _ (div_lt_of hi) bc hbc.1 hbc.2 _ _ (Nat.mod_lt _ h.hbr) (Nat.mod_lt _ h.hbc)
      (Or.inr (by rw [e, div_mod_eq]; exact hj))
  · rfl

/-- **C67 (preconditioner).** Creating the SSOR preconditioner with `ssor_omega = w` for a matrix in BSR format and
applying it to `b` returns `x` with `(wD+L)(wD)⁻¹(wD+U) x = b`, where `D` is the block diagonal, `L` and `U` the parts of
the matrix left and right of it; what the vectors hold beyond row `n` does not matter. -/
theorem ssorBsr_spec (junk : ℕ → ℕ → ℕ) (vjunk : ℕ → ℕ → R) (djunk wjunk sjunk : ℕ → R) (gjunk : ℕ → ℕ → R) {w : R}
    (hw : w ≠ 0) {A : Bsr R} (h : A.WF) (hs : A.Square) (hp : A.Padded) (hn : 0 < A.n)
    (hd : ∀ I, I < A.nr → A.DiagOnce I) (hm : A.BlockMinors) (b x : ℕ) {v : Vecs R}
    (hb : A.nr * A.bnr ≤ (v b).value.size) (hx : A.nr * A.bnr ≤ (v x).value.size) :
    Ok (ssorBsr junk vjunk djunk wjunk sjunk gjunk w A b x v) fun v' => OnlyChanged v x (A.nr * A.bnr) v' ∧
      SolvesSsorM A.n (fun i j => w * A.diagPart i j) A.lowPart A.upPart (v' x).value.get (v b).value.get := by
  obtain ⟨hnr, hlt, hle⟩ := hs.lt h.hbr hn
  unfold ssorBsr
  rw [Ok_bind]
  refine ((splitBsr_spec junk vjunk djunk h hs hd).conj
    (splitBsr_parts junk vjunk djunk h hs.blk hs.num)).mono ?_
  rintro S ⟨⟨a1, a2, a3, a4, a5, a6, a7, -⟩, -, -, -, -, b5, b6, b7, -⟩
  rw [Ok_bind, a2, a3, a4]
  refine (diagCopy_spec (by rw [b5, hs.blk]) (by rw [Arr.malloc_size, Nat.mul_comm])).mono ?_
  rintro D ⟨d1, d2, -⟩
  rw [Arr.malloc_size] at d1
  rw [Ok_bind]
  refine (diagScaleBlk_spec w (by rw [d1, Nat.mul_comm])).mono ?_
  rintro E ⟨e1, e2⟩
  rw [Ok_bind]
  refine (invertPart_spec gjunk hw h hs hp hn hm (by rw [e1, d1, Nat.mul_comm]) fun I hI r c hr hc => ?_).mono ?_
  · have h1 : I * (A.bnr * A.bnr) + c * A.bnr + r < A.nr * (A.bnr * A.bnr) := by
      have := blk_le hI (blk_le hc hr)
      omega
    rw [e2, if_pos h1, d2 _ h1]
    have := a7 (I * A.bnr + r) (I * A.bnr + c) (blk_le hI hr)
    unfold blockDiag Bsr.diagPart at this
    rw [mul_add_div' hr, mul_add_div' hc, mul_add_mod'' hr, mul_add_mod'' hc, if_pos rfl, if_pos rfl] at this
    rw [this]
  rintro wd ⟨w1, w2, w3⟩
  have hst : S.Strict := ⟨by rw [a3, a4]; exact a5, by rw [a3, a4]; exact a6⟩
  refine (solveSsorBsr_spec sjunk a1 hst (by rw [a3, a4, w1, e1, d1, Nat.mul_comm]) (by rw [a3, a4]; exact w2)
    (by rw [a3, a4]; exact hb) (by rw [a3, a4]; exact hx)).mono ?_
  rw [a3, a4]
  rintro v' ⟨g1, y, g2, g3⟩
  have cut : ∀ (f : ℕ → R) (u : ℕ → R), (∀ j, A.n ≤ j → j < A.nr * A.bnr → f j = 0) →
      ∑ j ∈ range (A.nr * A.bnr), f j * u j = ∑ j ∈ range A.n, f j * u j := by
    intro f u hf
    rw [← sum_subset (range_subset_range.2 hle)]
    intro j hj hj'
    rw [mem_range] at hj hj'
    rw [hf j (by omega) hj, zero_mul]
  have cutD : ∀ (u : ℕ → R) i, i < A.n → ∑ j ∈ range (A.nr * A.bnr), blockDiag A.bnr (padOne A.n A.bnr A.nr E) i j * u j =
      ∑ j ∈ range A.n, w * A.diagPart i j * u j := by
    intro u i hi
    have hi' : i < A.nr * A.bnr := by omega
    rw [sum_congr rfl fun j _ => by rw [w3 i j hi', if_pos hi]]
    exact cut _ _ fun j hj _ => by rw [diagPart_pad h hs hp hn hi' hj, mul_zero]
  have cutL : ∀ (u : ℕ → R) i, i < A.n → ∑ j ∈ range (A.nr * A.bnr), S.L.entry i j * u j =
      ∑ j ∈ range A.n, A.lowPart i j * u j := by
    intro u i hi
    have hi' : i < A.nr * A.bnr := by omega
    rw [sum_congr rfl fun j _ => by rw [b6 i j hi']]
    exact cut _ _ fun j hj _ => by rw [A.entry_pad h hp hi' hj, ite_self]
  have cutU : ∀ (u : ℕ → R) i, i < A.n → ∑ j ∈ range (A.nr * A.bnr), S.U.entry i j * u j =
      ∑ j ∈ range A.n, A.upPart i j * u j := by
    intro u i hi
    have hi' : i < A.nr * A.bnr := by omega
    rw [sum_congr rfl fun j _ => by rw [b7 i j hi']]
    exact cut _ _ fun j hj _ => by rw [A.entry_pad h hp hi' hj, ite_self]
  refine ⟨g1, y, fun i hi => ?_, fun i hi => ?_⟩
  · have := g2 i (by omega)
    rwa [cutD y i hi, cutL y i hi] at this
  · have := g3 i (by omega)
    simp only at this
    rwa [cutD _ i hi, cutU _ i hi, cutD y i hi] at this

end
end Lis
