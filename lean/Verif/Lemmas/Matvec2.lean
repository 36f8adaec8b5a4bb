import Verif.Model.Matvec2
import Verif.Lemmas.Matvec1
import Verif.Spec.Mul
import Mathlib.Data.Fintype.Card

/-! Helper lemmas: kernels that add `A x` to `y`. -/

namespace Lis
open Finset
variable {R : Type}

section
variable [NonUnitalNonAssocSemiring R]

/-- `y' = y + A x` on the first `n` elements, nothing else changes -/
def IsAddMul (n m : ℕ) (a : ℕ → ℕ → R) (x y y' : Arr R) : Prop :=
  y'.size = y.size ∧
    ∀ i, y'.get i = y.get i + (if i < n then ∑ j ∈ range m, a i j * x.get j else 0)

/-- `y' = y + Aᴴ x` on the first `m` elements, nothing else changes -/
def IsAddMulH [Star R] (n m : ℕ) (a : ℕ → ℕ → R) (x y y' : Arr R) : Prop :=
  y'.size = y.size ∧
    ∀ j, y'.get j = y.get j + (if j < m then ∑ i ∈ range n, star (a i j) * x.get i else 0)

theorem unsplit_of_add {n m : ℕ} {a : ℕ → ℕ → R} {x y : Arr R} {f : Arr R → Option (Arr R)}
    (hy : n ≤ y.size)
    (hf : ∀ y1 : Arr R, y1.size = y.size → Ok (f y1) (IsAddMul n m a x y1)) :
    Ok (zeroFill n y >>= f) fun y' => y'.size = y.size ∧ IsMul n m a x.get y'.get ∧
      SameFrom n y.get y'.get := by
  rw [Ok_bind]
  refine Ok_zeroFill hy fun y1 hs1 hz => (hf y1 hs1).mono ?_
  rintro y2 ⟨hs2, h2⟩
  refine ⟨by omega, fun i hi => ?_, fun i hi => ?_⟩
  · rw [h2, hz, if_pos hi, if_pos hi, zero_add]
  · rw [h2, hz, if_neg (by omega), if_neg (by omega), add_zero]

theorem Ok_diagInit {c : R → R} {n : ℕ} {d x y : Arr R} {Q : Arr R → Prop} (hd : n ≤ d.size)
    (hx : n ≤ x.size) (hy : n ≤ y.size)
    (hq : ∀ y' : Arr R, y'.size = y.size →
      (∀ j, y'.get j = if j < n then c (d.get j) * x.get j else y.get j) → Q y') :
    Ok (diagInit c n d x y) Q := Ok_diagFill hd hx hy hq

theorem split_of_add {n m : ℕ} {l u : ℕ → ℕ → R} {D x y : Arr R} {f g : Arr R → Option (Arr R)}
    (hD : n ≤ D.size) (hnm : n ≤ m) (hx : m ≤ x.size) (hy : n ≤ y.size)
    (hf : ∀ y1 : Arr R, y1.size = y.size → Ok (f y1) (IsAddMul n m l x y1))
    (hg : ∀ y1 : Arr R, y1.size = y.size → Ok (g y1) (IsAddMul n m u x y1)) :
    Ok (diagInit id n D x y >>= fun y => f y >>= g) fun y' => y'.size = y.size ∧
      IsMul n m (fun i j => (if i = j then D.get i else 0) + l i j + u i j) x.get y'.get ∧
      SameFrom n y.get y'.get := by
  rw [Ok_bind]
  refine Ok_diagInit hD (by omega) hy fun y1 hs1 hz => ?_
  rw [Ok_bind]
  refine (hf y1 hs1).mono ?_
  rintro y2 ⟨hs2, h2⟩
  refine (hg y2 (by omega)).mono ?_
  rintro y3 ⟨hs3, h3⟩
  refine ⟨by omega, fun i hi => ?_, fun i hi => ?_⟩
  · rw [h3, h2, hz, if_pos hi, if_pos hi, if_pos hi]
    simp only [add_mul, sum_add_distrib, ite_mul, zero_mul, sum_ite_eq]
    rw [if_pos (by simp; omega)]; rfl
  · rw [h3, h2, hz, if_neg (by omega), if_neg (by omega), if_neg (by omega), add_zero, add_zero]

/-- `y[t] += c` when `y[t]` is at hand -/
theorem Ok_addAt {y0 y : Arr R} {t : ℕ} {c : R} (ht : t < y.size) (hs : y.size = y0.size) :
    (y.set t (y.get t + c)).size = y0.size ∧
      ∀ j, (y.set t (y.get t + c)).get j = y.get j + if t = j then c else 0 :=
  ⟨by simpa using hs, fun _ => set_add_get _ _ _ _⟩

/-- gather by column -/
theorem row_gather {m : ℕ} {S : Finset ℕ} {v : ℕ → R} {c : ℕ → ℕ} {x : ℕ → R}
    (h : ∀ k ∈ S, c k < m) :
    ∑ j ∈ range m, (∑ k ∈ S, if c k = j then v k else 0) * x j = ∑ k ∈ S, v k * x (c k) :=
  (sum_by_col h).symm

theorem ellAcc_spec (A : Ell R) (h : A.WF) (x y : Arr R) (hx : A.n ≤ x.size) (hy : A.n ≤ y.size) :
    Ok (ellAcc A x y) (IsAddMul A.n A.n A.entry x y) := by
  unfold ellAcc
  refine Ok_loop_add (fun k i => if i < A.n then
    A.value.get (k * A.n + i) * x.get (A.index.get (k * A.n + i)) else 0) ?_ ?_
  · intro k y1 _ hk hs1
    refine Ok_loop_add (fun i i' => if i = i' then
      A.value.get (k * A.n + i) * x.get (A.index.get (k * A.n + i)) else 0) ?_ ?_
    · intro i y2 _ hi hs2
      have h1 := h.isz; have h2 := h.vsz
      have : (k + 1) * A.n ≤ A.maxnzr * A.n := Nat.mul_le_mul_right _ hk
      rw [Nat.add_mul, Nat.mul_comm A.maxnzr] at this
      have := h.idx k hk i hi
      simp only [Ok_bind, Ok_rd, Ok_wr]
      exact ⟨by omega, by omega, by omega, by omega, by omega, Ok_addAt (by omega) hs2⟩
    · intro y2 hs2 h2
      refine ⟨by omega, fun i => ?_⟩
      rw [h2, sum_Ico_zero, sum_ite_eq' (range A.n) i]; simp
  · intro y1 hs1 h1
    refine ⟨hs1, fun i => ?_⟩
    rw [h1, sum_Ico_zero]
    congr 1
    split
    · next hi =>
      simp only [Ell.entry]
      rw [row_gather]
      intro k hk
      exact h.idx k (by simpa using hk) i hi
    · simp

theorem diaAcc_spec (A : Dia R) (h : A.WF) (x y : Arr R) (hx : A.n ≤ x.size) (hy : A.n ≤ y.size) :
    Ok (diaAcc A x y) (IsAddMul A.n A.n A.entry x y) := by
  unfold diaAcc
  refine Ok_loop_add (fun d i => if i < A.n then ∑ j ∈ range A.n,
    (if A.index.get d = (j : ℤ) - i then A.value.get (d * A.n + i) else 0) * x.get j else 0) ?_ ?_
  · intro d y1 _ hd hs1
    have hisz := h.isz
    simp only [Ok_bind, Ok_rd]
    refine ⟨by omega, ?_⟩
    set jj := A.index.get d with hjj
    have hvsz := h.vsz
    have : (d + 1) * A.n ≤ A.nnd * A.n := Nat.mul_le_mul_right _ hd
    rw [Nat.add_mul] at this
    refine Ok_loop_add (fun i i' => if i = i' then
      A.value.get (d * A.n + i) * x.get (jj + i).toNat else 0) ?_ ?_
    · intro i y2 hi1 hi2 hs2
      simp only [Ok_bind, Ok_rd, Ok_wr, Ok_rdI]
      exact ⟨by omega, by omega, by omega, by omega, by omega, Ok_addAt (by omega) hs2⟩
    · intro y2 hs2 h2
      refine ⟨by omega, fun i => ?_⟩
      rw [h2]
      congr 1
      rw [sum_ite_eq']
      simp only [mem_Ico]
      by_cases hi : i < A.n
      · rw [if_pos hi]
        simp only [ite_mul, zero_mul]
        by_cases hc : 0 ≤ jj + i ∧ jj + i < A.n
        · rw [if_pos (by omega), sum_eq_single (jj + i).toNat]
          · rw [if_pos (by omega)]
          · intro j _ hj; rw [if_neg (by omega)]
          · intro hj; simp at hj; omega
        · rw [if_neg (by omega), sum_eq_zero]
          intro j hj
          rw [mem_range] at hj
          rw [if_neg (by omega)]
      · rw [if_neg (by omega), if_neg hi]
  · intro y1 hs1 h1
    refine ⟨hs1, fun i => ?_⟩
    rw [h1, sum_Ico_zero]
    congr 1
    split
    · next hi =>
      simp only [Dia.entry, sum_mul]
      rw [sum_comm]
    · simp

/-- the permutation of a JAD matrix hits every row -/
theorem Jad.WF.surj {A : Jad R} (h : A.WF) {i : ℕ} (hi : i < A.n) :
    ∃ k, k < A.n ∧ A.row.get k = i := by
  let f : Fin A.n → Fin A.n := fun k => ⟨A.row.get k, h.row k k.2⟩
  have hf : Function.Injective f := by
    intro a b hab
    have : A.row.get a = A.row.get b := by simpa [f] using hab
    exact Fin.ext (h.inj a b a.2 b.2 this)
  obtain ⟨k, hk⟩ := (Finite.injective_iff_surjective.mp hf) ⟨i, hi⟩
  exact ⟨k, k.2, by simpa [f] using congrArg Fin.val hk⟩

/-- element `k` of the product in permuted order -/
theorem Jad.row_sum {A : Jad R} (h : A.WF) (x : ℕ → R) {k : ℕ} (hk : k < A.n) :
    ∑ j ∈ range A.np, A.entry (A.row.get k) j * x j =
      ∑ d ∈ range A.maxnzr, if k < A.ptr.get (d + 1) - A.ptr.get d then
        A.value.get (A.ptr.get d + k) * x (A.index.get (A.ptr.get d + k)) else 0 := by
  simp only [Jad.entry, sum_mul]
  rw [sum_comm]
  refine sum_congr rfl fun d hd => ?_
  rw [mem_range] at hd
  rw [sum_comm]
  have key : ∀ l ∈ range (A.ptr.get (d + 1) - A.ptr.get d), (∑ j ∈ range A.np,
      (if A.row.get l = A.row.get k ∧ A.index.get (A.ptr.get d + l) = j then
        A.value.get (A.ptr.get d + l) else 0) * x j) =
      if l = k then A.value.get (A.ptr.get d + k) * x (A.index.get (A.ptr.get d + k)) else 0 := by
    intro l hl
    rw [mem_range] at hl
    have hln := h.len d hd
    have hi := h.idx (A.ptr.get d + l) (h.ptr.lt_nnz hd (by omega))
    by_cases hlk : l = k
    · subst hlk
      simp only [true_and, ite_mul, zero_mul, if_true]
      rw [sum_ite_eq, if_pos (by simpa using hi)]
    · have : ¬ A.row.get l = A.row.get k := fun hh => hlk (h.inj l k (by omega) hk hh)
      simp [hlk, this]
  rw [sum_congr rfl key, sum_ite_eq' ]
  simp

theorem jadAcc_spec (A : Jad R) (h : A.WF) (x w : Arr R) (hx : A.np ≤ x.size) (hw : A.n ≤ w.size) :
    Ok (jadAcc A x w) fun w' => w'.size = w.size ∧
      ∀ k, w'.get k = w.get k + ∑ d ∈ range A.maxnzr, if k < A.ptr.get (d + 1) - A.ptr.get d then
        A.value.get (A.ptr.get d + k) * x.get (A.index.get (A.ptr.get d + k)) else 0 := by
  unfold jadAcc
  refine Ok_loop_add (fun d k => if k < A.ptr.get (d + 1) - A.ptr.get d then
        A.value.get (A.ptr.get d + k) * x.get (A.index.get (A.ptr.get d + k)) else 0) ?_ ?_
  · intro d w1 _ hd hs1
    have := h.ptr.size
    simp only [Ok_bind, Ok_rd]
    refine ⟨by omega, by omega, ?_⟩
    have hln := h.len d hd; have := h.isz; have := h.vsz
    refine Ok_loop_add (fun i k => if i - A.ptr.get d = k then
      A.value.get i * x.get (A.index.get i) else 0) ?_ ?_
    · intro i w2 hi1 hi2 hs2
      have hnn := h.ptr.lt_nnz hd hi2
      have := h.idx i hnn
      simp only [Ok_bind, Ok_rd, Ok_wr]
      exact ⟨by omega, by omega, by omega, by omega, by omega, Ok_addAt (by omega) hs2⟩
    · intro w2 hs2 h2
      refine ⟨by omega, fun k => ?_⟩
      rw [h2]
      congr 1
      by_cases hk : k < A.ptr.get (d + 1) - A.ptr.get d
      · rw [if_pos hk, sum_eq_single (A.ptr.get d + k)]
        · rw [if_pos (by omega)]
        · intro i hi hne; rw [mem_Ico] at hi; rw [if_neg (by omega)]
        · intro hi; rw [mem_Ico] at hi; omega
      · rw [if_neg hk, sum_eq_zero]
        intro i hi; rw [mem_Ico] at hi; rw [if_neg (by omega)]
  · intro w1 hs1 h1
    refine ⟨hs1, fun k => ?_⟩
    rw [h1, sum_Ico_zero]

theorem jadAddRows_spec (A : Jad R) (h : A.WF) (x w y : Arr R) (hw : A.n ≤ w.size)
    (hy : A.n ≤ y.size)
    (hwv : ∀ k, k < A.n → w.get k = ∑ j ∈ range A.np, A.entry (A.row.get k) j * x.get j) :
    Ok (jadAddRows A w y) (IsAddMul A.n A.np A.entry x y) := by
  unfold jadAddRows
  have := h.rsz
  refine Ok_loop_add (fun k i => if A.row.get k = i then w.get k else 0) ?_ ?_
  · intro k y1 _ hk hs1
    have := h.row k hk
    simp only [Ok_bind, Ok_rd, Ok_wr]
    exact ⟨by omega, by omega, by omega, by omega, Ok_addAt (by omega) hs1⟩
  · intro y1 hs1 h1
    refine ⟨hs1, fun i => ?_⟩
    rw [h1, sum_Ico_zero]
    congr 1
    split
    · next hi =>
      obtain ⟨k, hk, rfl⟩ := h.surj hi
      rw [sum_eq_single k, if_pos rfl, hwv k hk]
      · intro l hl hne
        rw [if_neg]
        intro hh; exact hne (h.inj l k (by simpa using hl) hk hh)
      · intro hk'; simp at hk'; omega
    · next hi =>
      refine sum_eq_zero fun k hk => ?_
      have := h.row k (by simpa using hk)
      rw [if_neg (by omega)]
end

section star
variable [NonUnitalNonAssocSemiring R] [StarRing R]

theorem unsplit_of_addH {n m : ℕ} {a : ℕ → ℕ → R} {x y : Arr R} {f : Arr R → Option (Arr R)}
    (hy : m ≤ y.size)
    (hf : ∀ y1 : Arr R, y1.size = y.size → Ok (f y1) (IsAddMulH n m a x y1)) :
    Ok (zeroFill m y >>= f) fun y' => y'.size = y.size ∧ IsMulH n m a x.get y'.get ∧
      SameFrom m y.get y'.get := by
  rw [Ok_bind]
  refine Ok_zeroFill hy fun y1 hs1 hz => (hf y1 hs1).mono ?_
  rintro y2 ⟨hs2, h2⟩
  refine ⟨by omega, fun i hi => ?_, fun i hi => ?_⟩
  · rw [h2, hz, if_pos hi, if_pos hi, zero_add]
  · rw [h2, hz, if_neg (by omega), if_neg (by omega), add_zero]

theorem split_of_addH {n : ℕ} {l u : ℕ → ℕ → R} {D x y : Arr R} {f g : Arr R → Option (Arr R)}
    (hD : n ≤ D.size) (hx : n ≤ x.size) (hy : n ≤ y.size)
    (hf : ∀ y1 : Arr R, y1.size = y.size → Ok (f y1) (IsAddMulH n n l x y1))
    (hg : ∀ y1 : Arr R, y1.size = y.size → Ok (g y1) (IsAddMulH n n u x y1)) :
    Ok (diagInit star n D x y >>= fun y => f y >>= g) fun y' => y'.size = y.size ∧
      IsMulH n n (fun i j => (if i = j then D.get i else 0) + l i j + u i j) x.get y'.get ∧
      SameFrom n y.get y'.get := by
  rw [Ok_bind]
  refine Ok_diagInit hD (by omega) hy fun y1 hs1 hz => ?_
  rw [Ok_bind]
  refine (hf y1 hs1).mono ?_
  rintro y2 ⟨hs2, h2⟩
  refine (hg y2 (by omega)).mono ?_
  rintro y3 ⟨hs3, h3⟩
  refine ⟨by omega, fun i hi => ?_, fun i hi => ?_⟩
  · rw [h3, h2, hz, if_pos hi, if_pos hi, if_pos hi]
    simp only [star_add, add_mul, sum_add_distrib, apply_ite star, star_zero,
        ite_mul, zero_mul, sum_ite_eq']
    rw [if_pos (by simp; omega)]
  · rw [h3, h2, hz, if_neg (by omega), if_neg (by omega), if_neg (by omega), add_zero, add_zero]

theorem ellAccH_spec (A : Ell R) (h : A.WF) (x y : Arr R) (hx : A.n ≤ x.size) (hy : A.n ≤ y.size) :
    Ok (ellAccH A x y) (IsAddMulH A.n A.n A.entry x y) := by
  unfold ellAccH
  refine Ok_loop_add (fun k j => ∑ i ∈ range A.n, if A.index.get (k * A.n + i) = j then
    star (A.value.get (k * A.n + i)) * x.get i else 0) ?_ ?_
  · intro k y1 _ hk hs1
    refine Ok_loop_add (fun i j => if A.index.get (k * A.n + i) = j then
      star (A.value.get (k * A.n + i)) * x.get i else 0) ?_ ?_
    · intro i y2 _ hi hs2
      have h1 := h.isz; have h2 := h.vsz
      have : (k + 1) * A.n ≤ A.maxnzr * A.n := Nat.mul_le_mul_right _ hk
      rw [Nat.add_mul, Nat.mul_comm A.maxnzr] at this
      have := h.idx k hk i hi
      simp only [Ok_bind, Ok_rd, Ok_wr]
      exact ⟨by omega, by omega, by omega, by omega, by omega, Ok_addAt (by omega) hs2⟩
    · intro y2 hs2 h2
      exact ⟨by omega, fun j => by rw [h2, sum_Ico_zero]⟩
  · intro y1 hs1 h1
    refine ⟨hs1, fun j => ?_⟩
    rw [h1, sum_Ico_zero]
    congr 1
    split
    · simp only [Ell.entry, star_sum, sum_mul, apply_ite star, star_zero, ite_mul, zero_mul]
      rw [sum_comm]
    · next hj =>
      refine sum_eq_zero fun k hk => sum_eq_zero fun i hi => ?_
      have := h.idx k (by simpa using hk) i (by simpa using hi)
      rw [if_neg (by omega)]

theorem diaAccH_spec (A : Dia R) (h : A.WF) (x y : Arr R) (hx : A.n ≤ x.size) (hy : A.n ≤ y.size) :
    Ok (diaAccH A x y) (IsAddMulH A.n A.n A.entry x y) := by
  unfold diaAccH
  refine Ok_loop_add (fun d j => if j < A.n then ∑ i ∈ range A.n,
    (if A.index.get d = (j : ℤ) - i then star (A.value.get (d * A.n + i)) * x.get i else 0) else 0)
    ?_ ?_
  · intro d y1 _ hd hs1
    have hisz := h.isz
    simp only [Ok_bind, Ok_rd]
    refine ⟨by omega, ?_⟩
    set jj := A.index.get d with hjj
    have hvsz := h.vsz
    have : (d + 1) * A.n ≤ A.nnd * A.n := Nat.mul_le_mul_right _ hd
    rw [Nat.add_mul] at this
    refine Ok_loop_add (fun i j => if (jj + i).toNat = j then
      star (A.value.get (d * A.n + i)) * x.get i else 0) ?_ ?_
    · intro i y2 hi1 hi2 hs2
      simp only [Ok_bind, Ok_rd, Ok_rdI, Ok_wrI]
      exact ⟨by omega, by omega, by omega, by omega, by omega, by omega, Ok_addAt (by omega) hs2⟩
    · intro y2 hs2 h2
      refine ⟨by omega, fun j => ?_⟩
      rw [h2]
      congr 1
      split
      · next hj =>
        rw [← sum_subset (s₁ := Ico (max 0 (-jj)).toNat (min (A.n : ℤ) (A.n - jj)).toNat)
            (s₂ := range A.n)]
        · refine sum_congr rfl fun i hi => ?_
          rw [mem_Ico] at hi
          by_cases hc : (jj + i).toNat = j
          · rw [if_pos hc, if_pos (by omega)]
          · rw [if_neg hc, if_neg (by omega)]
        · intro i hi; rw [mem_Ico] at hi; rw [mem_range]; omega
        · intro i hi hni
          rw [mem_range] at hi; rw [mem_Ico] at hni
          rw [if_neg (by omega)]
      · next hj =>
        refine sum_eq_zero fun i hi => ?_
        rw [mem_Ico] at hi
        rw [if_neg (by omega)]
  · intro y1 hs1 h1
    refine ⟨hs1, fun j => ?_⟩
    rw [h1, sum_Ico_zero]
    congr 1
    split
    · simp only [Dia.entry, star_sum, sum_mul, apply_ite star, star_zero, ite_mul, zero_mul]
      rw [sum_comm]
    · simp

theorem jadAccH_spec (A : Jad R) (h : A.WF) (x y : Arr R) (hx : A.n ≤ x.size)
    (hy : A.np ≤ y.size) : Ok (jadAccH A x y) (IsAddMulH A.n A.np A.entry x y) := by
  unfold jadAccH
  refine Ok_loop_add (fun d j => ∑ k ∈ range (A.ptr.get (d + 1) - A.ptr.get d),
    if A.index.get (A.ptr.get d + k) = j then
      star (A.value.get (A.ptr.get d + k)) * x.get (A.row.get k) else 0) ?_ ?_
  · intro d y1 _ hd hs1
    have := h.ptr.size
    simp only [Ok_bind, Ok_rd]
    refine ⟨by omega, by omega, ?_⟩
    have hln := h.len d hd; have := h.isz; have := h.vsz; have := h.rsz
    refine Ok_loop_add (fun i j => if A.index.get i = j then
      star (A.value.get i) * x.get (A.row.get (i - A.ptr.get d)) else 0) ?_ ?_
    · intro i y2 hi1 hi2 hs2
      have hnn := h.ptr.lt_nnz hd hi2
      have := h.idx i hnn
      have := h.row (i - A.ptr.get d) (by omega)
      simp only [Ok_bind, Ok_rd, Ok_wr]
      exact ⟨by omega, by omega, by omega, by omega, by omega, by omega, Ok_addAt (by omega) hs2⟩
    · intro y2 hs2 h2
      refine ⟨by omega, fun j => ?_⟩
      rw [h2]
      congr 1
      rw [sum_Ico_eq_sum_range]
      refine sum_congr rfl fun k _ => ?_
      rw [Nat.add_sub_cancel_left]
  · intro y1 hs1 h1
    refine ⟨hs1, fun j => ?_⟩
    rw [h1, sum_Ico_zero]
    congr 1
    split
    · next hj =>
      simp only [Jad.entry, star_sum, sum_mul, apply_ite star, star_zero, ite_mul, zero_mul]
      rw [sum_comm]
      refine sum_congr rfl fun d hd => ?_
      rw [sum_comm]
      refine sum_congr rfl fun k hk => ?_
      rw [mem_range] at hd hk
      have hln := h.len d hd
      have hr := h.row k (by omega)
      by_cases hc : A.index.get (A.ptr.get d + k) = j
      · simp [hc, hr]
      · simp [hc]
    · next hj =>
      refine sum_eq_zero fun d hd => sum_eq_zero fun k hk => ?_
      rw [mem_range] at hd hk
      have := h.idx (A.ptr.get d + k) (h.ptr.lt_nnz hd (by omega))
      rw [if_neg (by omega)]
end star
end Lis
