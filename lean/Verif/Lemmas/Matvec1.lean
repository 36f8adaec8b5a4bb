import Verif.Model.Matvec1
import Verif.Base.Sum
import Mathlib.Algebra.Star.BigOperators

/-! Helper lemmas for the matvec kernels. -/

namespace Lis
open Finset
variable {R : Type}

section semi
variable [NonUnitalNonAssocSemiring R]

theorem Ok_accRow {index : Arr ℕ} {value x : Arr R} {js je : ℕ} {t0 : R} {Q : R → Prop}
    (hi : ∀ j, js ≤ j → j < je → j < index.size ∧ j < value.size ∧ index.get j < x.size)
    (hq : Q (t0 + ∑ j ∈ Ico js je, value.get j * x.get (index.get j))) :
    Ok (accRow index value x js je t0) Q := by
  refine Ok_loop_sum' (fun j => value.get j * x.get (index.get j)) ?_ hq
  intro j t h1 h2
  simp [hi j h1 h2]

theorem Ok_zeroFill {n : ℕ} {y : Arr R} {Q : Arr R → Prop} (hn : n ≤ y.size)
    (hq : ∀ y' : Arr R, y'.size = y.size → (∀ j, y'.get j = if j < n then 0 else y.get j) → Q y') :
    Ok (zeroFill n y) Q := by
  refine Ok_loop_fill (fun _ => 0) ?_ ?_
  · intro i y' _ h2 hsz _ _
    simp; omega
  · intro y' h1 h2 h3
    refine hq y' h1 fun j => ?_
    split
    · next h => exact h2 j (by omega) h
    · next h => exact h3 j (by omega)

/-- diagonal initialisation loop `y[i] = c(D[i])*x[i]` -/
theorem Ok_diagFill {n : ℕ} {d x y : Arr R} {c : R → R} {Q : Arr R → Prop} (hd : n ≤ d.size)
    (hx : n ≤ x.size) (hy : n ≤ y.size)
    (hq : ∀ y' : Arr R, y'.size = y.size →
      (∀ j, y'.get j = if j < n then c (d.get j) * x.get j else y.get j) → Q y') :
    Ok (loop 0 n y fun i y => do
      let d ← d.rd i
      let xi ← x.rd i
      y.wr i (c d * xi)) Q := by
  refine Ok_loop_fill (fun i => c (d.get i) * x.get i) ?_ ?_
  · intro i y' _ h2 hsz _ _
    simp; omega
  · intro y' h1 h2 h3
    refine hq y' h1 fun j => ?_
    split
    · next h => exact h2 j (by omega) h
    · next h => exact h3 j (by omega)

theorem Ok_scatterCol {c : R → R} {index : Arr ℕ} {value : Arr R} {t : R} {js je : ℕ} {y : Arr R}
    {Q : Arr R → Prop}
    (hi : ∀ j, js ≤ j → j < je → j < index.size ∧ j < value.size ∧ index.get j < y.size)
    (hq : ∀ y' : Arr R, y'.size = y.size →
      (∀ i, y'.get i = y.get i +
        ∑ k ∈ Ico js je, if index.get k = i then c (value.get k) * t else 0) → Q y') :
    Ok (scatterCol c index value t js je y) Q := by
  refine Ok_loop_add (fun k i => if index.get k = i then c (value.get k) * t else 0) ?_ hq
  intro k y' h1 h2 hsz
  have := hi k h1 h2
  simp only [Ok_bind, Ok_rd, Ok_wr]
  refine ⟨this.1, this.2.1, by omega, by omega, by simpa using hsz, fun j => set_add_get _ _ _ _⟩

theorem Ok_scatterCoo {c : R → R} {nnz : ℕ} {row col : Arr ℕ} {value x y : Arr R}
    {Q : Arr R → Prop}
    (hi : ∀ k, k < nnz → k < row.size ∧ k < col.size ∧ k < value.size ∧ row.get k < y.size ∧
      col.get k < x.size)
    (hq : ∀ y' : Arr R, y'.size = y.size →
      (∀ i, y'.get i = y.get i +
        ∑ k ∈ range nnz, if row.get k = i then c (value.get k) * x.get (col.get k) else 0) → Q y') :
    Ok (scatterCoo c nnz row col value x y) Q := by
  refine Ok_loop_add (fun k i => if row.get k = i then c (value.get k) * x.get (col.get k) else 0)
    ?_ (by simpa [sum_Ico_zero] using hq)
  intro k y' h1 h2 hsz
  obtain ⟨a, b, d, e, f⟩ := hi k h2
  simp only [Ok_bind, Ok_rd, Ok_wr]
  refine ⟨a, b, d, by omega, f, by omega, by simpa using hsz, fun j => set_add_get _ _ _ _⟩
end semi

section entries
variable [NonUnitalNonAssocSemiring R]

omit [NonUnitalNonAssocSemiring R] in
theorem Csr.WF.access {A : Csr R} (h : A.WF) {x : Arr R} (hx : A.np ≤ x.size) {i : ℕ}
    (hi : i < A.n) {k : ℕ} (hk : k < A.ptr.get (i + 1)) :
    k < A.index.size ∧ k < A.value.size ∧ A.index.get k < x.size := by
  have h1 := h.ptr.lt_nnz hi hk
  have := h.isz; have := h.vsz; have := h.idx k h1
  omega

omit [NonUnitalNonAssocSemiring R] in
theorem Csc.WF.access {A : Csc R} (h : A.WF) {x : Arr R} (hx : A.n ≤ x.size) {i : ℕ}
    (hi : i < A.np) {k : ℕ} (hk : k < A.ptr.get (i + 1)) :
    k < A.index.size ∧ k < A.value.size ∧ A.index.get k < x.size := by
  have h1 := h.ptr.lt_nnz hi hk
  have := h.isz; have := h.vsz; have := h.idx k h1
  omega

/-- row `i` of the product, from the stored elements -/
theorem Csr.row_sum {A : Csr R} (h : A.WF) (x : ℕ → R) {i : ℕ} (hi : i < A.n) :
    ∑ k ∈ Ico (A.ptr.get i) (A.ptr.get (i + 1)), A.value.get k * x (A.index.get k) =
      ∑ j ∈ range A.np, A.entry i j * x j := by
  refine sum_by_col fun k hk => ?_
  rw [mem_Ico] at hk
  exact h.idx k (h.ptr.lt_nnz hi hk.2)

/-- column `j` of a CSC matrix times a vector -/
theorem Csc.col_sum {A : Csc R} (h : A.WF) (x : ℕ → R) {j : ℕ} (hj : j < A.np) :
    ∑ k ∈ Ico (A.ptr.get j) (A.ptr.get (j + 1)), A.value.get k * x (A.index.get k) =
      ∑ i ∈ range A.n, A.entry i j * x i := by
  refine sum_by_col fun k hk => ?_
  rw [mem_Ico] at hk
  exact h.idx k (h.ptr.lt_nnz hj hk.2)

theorem Csr.entry_eq_zero {A : Csr R} (h : A.WF) {i j : ℕ} (hi : i < A.n) (hj : A.np ≤ j) :
    A.entry i j = 0 := by
  refine sum_eq_zero fun k hk => ?_
  rw [mem_Ico] at hk
  have := h.idx k (h.ptr.lt_nnz hi hk.2)
  rw [if_neg (by omega)]

theorem Csc.entry_eq_zero {A : Csc R} (h : A.WF) {i j : ℕ} (hi : A.n ≤ i) (hj : j < A.np) :
    A.entry i j = 0 := by
  refine sum_eq_zero fun k hk => ?_
  rw [mem_Ico] at hk
  have := h.idx k (h.ptr.lt_nnz hj hk.2)
  rw [if_neg (by omega)]

theorem ite_sum_mul {S : Finset ℕ} {p : ℕ → Prop} [DecidablePred p] (v : ℕ → R) (t : R) :
    (∑ k ∈ S, if p k then v k * t else 0) = (∑ k ∈ S, if p k then v k else 0) * t := by
  rw [Finset.sum_mul]; refine Finset.sum_congr rfl fun k _ => ?_
  split <;> simp

theorem Msr.row_sum {A : Msr R} (h : A.WF) (x : ℕ → R) {i : ℕ} (hi : i < A.n) :
    A.value.get i * x i +
    ∑ k ∈ Ico (A.index.get i) (A.index.get (i + 1)), A.value.get k * x (A.index.get k) =
      ∑ j ∈ range A.n, A.entry i j * x j := by
  have hm : ∀ k, k < A.n → A.n + 1 ≤ A.index.get k := by
    intro k
    induction k with
    | zero => rw [h.zero]; omega
    | succ k ih => intro hk; exact (ih (by omega)).trans (h.mono k (by omega))
  have hM : ∀ d, d ≤ A.n → A.index.get (A.n - d) ≤ A.n + 1 + A.nnz := by
    intro d
    induction d with
    | zero => rw [Nat.sub_zero, h.last]; omega
    | succ d ih =>
      intro hd
      refine (h.mono (A.n - (d + 1)) (by omega)).trans ?_
      rw [show A.n - (d + 1) + 1 = A.n - d by omega]; exact ih (by omega)
  rw [sum_by_col (m := A.n)]
  · simp only [Msr.entry, add_mul, sum_add_distrib, ite_mul, zero_mul, sum_ite_eq]
    rw [if_pos (by simpa using hi)]
  · intro k hk
    rw [mem_Ico] at hk
    have := hm i hi
    have := hM (A.n - (i + 1)) (by omega)
    rw [show A.n - (A.n - (i + 1)) = i + 1 by omega] at this
    exact h.idx k (by omega) (by omega)

omit [NonUnitalNonAssocSemiring R] in
theorem Msr.WF.range {A : Msr R} (h : A.WF) {i : ℕ} (hi : i < A.n) :
    A.n + 1 ≤ A.index.get i ∧ A.index.get (i + 1) ≤ A.n + 1 + A.nnz := by
  have hm : ∀ k, k < A.n → A.n + 1 ≤ A.index.get k := by
    intro k
    induction k with
    | zero => rw [h.zero]; omega
    | succ k ih => intro hk; exact (ih (by omega)).trans (h.mono k (by omega))
  have hM : ∀ d, d ≤ A.n → A.index.get (A.n - d) ≤ A.n + 1 + A.nnz := by
    intro d
    induction d with
    | zero => rw [Nat.sub_zero, h.last]; omega
    | succ d ih =>
      intro hd
      refine (h.mono (A.n - (d + 1)) (by omega)).trans ?_
      rw [show A.n - (d + 1) + 1 = A.n - d by omega]; exact ih (by omega)
  refine ⟨hm i hi, ?_⟩
  have := hM (A.n - (i + 1)) (by omega)
  rwa [show A.n - (A.n - (i + 1)) = i + 1 by omega] at this

end entries

section star
variable [NonUnitalNonAssocSemiring R] [StarRing R]
theorem ite_sum_star_mul {S : Finset ℕ} {p : ℕ → Prop} [DecidablePred p] (v : ℕ → R) (t : R) :
    (∑ k ∈ S, if p k then star (v k) * t else 0) = star (∑ k ∈ S, if p k then v k else 0) * t := by
  rw [ite_sum_mul, star_sum]; congr 1; refine Finset.sum_congr rfl fun k _ => ?_
  split <;> simp

theorem Ok_accRowH {index : Arr ℕ} {value x : Arr R} {js je : ℕ} {t0 : R} {Q : R → Prop}
    (hi : ∀ j, js ≤ j → j < je → j < index.size ∧ j < value.size ∧ index.get j < x.size)
    (hq : Q (t0 + ∑ j ∈ Ico js je, star (value.get j) * x.get (index.get j))) :
    Ok (accRowH index value x js je t0) Q := by
  refine Ok_loop_sum' (fun j => star (value.get j) * x.get (index.get j)) ?_ hq
  intro j t h1 h2
  simp [hi j h1 h2]

theorem sum_by_col_star {m : ℕ} {S : Finset ℕ} {c : ℕ → ℕ} {v x : ℕ → R}
    (h : ∀ k ∈ S, c k < m) :
    ∑ k ∈ S, star (v k) * x (c k) =
      ∑ j ∈ range m, star (∑ k ∈ S, if c k = j then v k else 0) * x j := by
  rw [sum_by_col h]
  refine Finset.sum_congr rfl fun j _ => ?_
  rw [star_sum]; congr 1; refine Finset.sum_congr rfl fun k _ => ?_
  split <;> simp

theorem Csc.col_sumH {A : Csc R} (h : A.WF) (x : ℕ → R) {j : ℕ} (hj : j < A.np) :
    ∑ k ∈ Ico (A.ptr.get j) (A.ptr.get (j + 1)), star (A.value.get k) * x (A.index.get k) =
      ∑ i ∈ range A.n, star (A.entry i j) * x i := by
  refine sum_by_col_star fun k hk => ?_
  rw [mem_Ico] at hk
  exact h.idx k (h.ptr.lt_nnz hj hk.2)

theorem Coo.scatterH {A : Coo R} (h : A.WF) (x : ℕ → R) (j : ℕ) :
    (∑ k ∈ range A.nnz, if A.col.get k = j then star (A.value.get k) * x (A.row.get k) else 0) =
      ∑ i ∈ range A.n, star (A.entry i j) * x i := by
  simp only [Coo.entry, star_sum, sum_mul, apply_ite star, star_zero, ite_mul, zero_mul]
  rw [sum_comm]
  refine sum_congr rfl fun k hk => ?_
  have := h.row k (by simpa using hk)
  by_cases hr : A.col.get k = j
  · simp [hr, this]
  · simp [hr]
end star

end Lis
