import Verif.Spec.Array
import Verif.Base.Sum
import Verif.Base.Lists2

/-! # C20: the small dense kernels -/

namespace Lis
open Finset
variable {R : Type}

section
variable [NonUnitalNonAssocRing R]

theorem Ok_opWr (op : ArrOp) (y : Arr R) (i : ℕ) (t : R) (Q : Arr R → Prop) :
    Ok (opWr op y i t) Q ↔ i < y.size ∧ Q (y.set i (op.app (y.get i) t)) := by
  cases op <;> simp [opWr, ArrOp.app]

theorem Ok_mulAt (c : R → R) (a x : Arr R) (p q : ℕ) (Q : R → Prop) :
    Ok (mulAt c a x p q) Q ↔ p < a.size ∧ q < x.size ∧ Q (c (a.get p) * x.get q) := by
  simp [mulAt]

/-- the effect of the product kernels: rows `< m` are combined with `t`, the others kept -/
def RowsSet (op : ArrOp) (m : ℕ) (t : ℕ → R) (y y' : Arr R) : Prop :=
  y'.size = y.size ∧ (∀ i, i < m → y'.get i = op.app (y.get i) (t i)) ∧ ∀ i, m ≤ i → y'.get i = y.get i

theorem denseRows_ok (c : R → R) (ix : ℕ → ℕ → ℕ) (op : ArrOp) (m n : ℕ) (a x y : Arr R)
    (ha : ∀ i j, i < m → j < n → ix i j < a.size) (hx : n ≤ x.size) (hy : m ≤ y.size) :
    Ok (denseRows c ix op m n a x y)
      (RowsSet op m (fun i => ∑ j ∈ range n, c (a.get (ix i j)) * x.get j) y) := by
  unfold denseRows
  refine Ok_loop_fill (fun i => op.app (y.get i) (∑ j ∈ range n, c (a.get (ix i j)) * x.get j)) ?_ ?_
  · intro i z h1 h2 hz ho hg
    rw [Ok_bind]
    refine Ok_loop_sum' (fun j => c (a.get (ix i j)) * x.get j) ?_ ?_
    · intro j t _ hj
      rw [Ok_bind, Ok_mulAt]
      exact ⟨ha i j h2 hj, by omega, by simp⟩
    · rw [Ok_opWr]
      refine ⟨by omega, ?_⟩
      rw [ho i (by omega), zero_add, sum_Ico_zero]
  · intro z h1 h2 h3
    exact ⟨h1, fun i hi => h2 i (by omega) hi, fun i hi => h3 i (by omega)⟩

/-- C20: `lis_array_matvec` computes `y op A x` with `A` the column-major matrix in `a`; every `n`, including the
unrolled ones -/
theorem arrayMatvec_spec (op : ArrOp) (n : ℕ) (a x y : Arr R) (ha : n * n ≤ a.size) (hx : n ≤ x.size)
    (hy : n ≤ y.size) :
    Ok (arrayMatvec op n a x y) fun y' => y'.size = y.size ∧
      (∀ i : Fin n, y'.get i = op.app (y.get i) ((a.mat n n n).mulVec (x.vec n) i)) ∧
      ∀ i, n ≤ i → y'.get i = y.get i := by
  have key : Ok (arrayMatvec op n a x y)
      (RowsSet op n (fun i => ∑ j ∈ range n, a.get (i + j * n) * x.get j) y) := by
    unfold arrayMatvec
    split
    · simp only [Ok_bind, Ok_mulAt, Ok_opWr]
      refine ⟨by omega, by omega, by omega, rfl, ?_, ?_⟩
      · intro i hi
        obtain rfl : i = 0 := by omega
        simp
      · intro i hi
        rw [Arr.set_get_ne _ _ (by omega)]
    · simp only [Ok_bind, Ok_mulAt, Ok_opWr, lin2, Ok_pure, Arr.set_size]
      refine ⟨by omega, by omega, by omega, by omega, by omega, by omega, by omega, by omega, by omega, by omega,
        rfl, ?_, ?_⟩
      · intro i hi
        obtain rfl | rfl : i = 0 ∨ i = 1 := by omega
        all_goals simp [Arr.set_get, sum_range_succ]
      · intro i hi
        simp only [Arr.set_get]
        rw [if_neg (by omega), if_neg (by omega)]
    · simp only [Ok_bind, Ok_mulAt, Ok_opWr, lin2, lin3, Ok_pure, Arr.set_size]
      refine ⟨by omega, by omega, by omega, by omega, by omega, by omega, by omega, by omega, by omega, by omega,
        by omega, by omega, by omega, by omega, by omega, by omega, by omega, by omega, by omega, by omega, by omega,
        rfl, ?_, ?_⟩
      · intro i hi
        obtain rfl | rfl | rfl : i = 0 ∨ i = 1 ∨ i = 2 := by omega
        all_goals simp [Arr.set_get, sum_range_succ]
      · intro i hi
        simp only [Arr.set_get]
        rw [if_neg (by omega), if_neg (by omega), if_neg (by omega)]
    · refine denseRows_ok id _ op _ _ a x y ?_ hx hy
      intro i j hi hj
      have := flat_lt hj hi
      omega
  refine key.mono ?_
  rintro y' ⟨h1, h2, h3⟩
  refine ⟨h1, fun i => ?_, h3⟩
  rw [h2 i i.2]
  simp [Matrix.mulVec, dotProduct, Arr.mat, Arr.vec, Finset.sum_range]

/-- C20: `lis_array_matvec_ns`, rectangular with a leading dimension -/
theorem arrayMatvecNs_spec (op : ArrOp) (m n lda : ℕ) (a x y : Arr R)
    (ha : ∀ i j, i < m → j < n → i + j * lda < a.size) (hx : n ≤ x.size) (hy : m ≤ y.size) :
    Ok (arrayMatvecNs op m n a lda x y) fun y' => y'.size = y.size ∧
      (∀ i : Fin m, y'.get i = op.app (y.get i) ((a.mat m n lda).mulVec (x.vec n) i)) ∧
      ∀ i, m ≤ i → y'.get i = y.get i := by
  refine (denseRows_ok id _ op m n a x y ha hx hy).mono ?_
  rintro y' ⟨h1, h2, h3⟩
  refine ⟨h1, fun i => ?_, h3⟩
  rw [h2 i i.2]
  simp [Matrix.mulVec, dotProduct, Arr.mat, Arr.vec, Finset.sum_range]

/-- C20: `lis_array_matvech` computes `y op Aᴴ x` -/
theorem arrayMatvech_spec [StarRing R] (op : ArrOp) (n : ℕ) (a x y : Arr R) (ha : n * n ≤ a.size) (hx : n ≤ x.size)
    (hy : n ≤ y.size) :
    Ok (arrayMatvech star op n a x y) fun y' => y'.size = y.size ∧
      (∀ i : Fin n, y'.get i = op.app (y.get i) ((a.mat n n n).conjTranspose.mulVec (x.vec n) i)) ∧
      ∀ i, n ≤ i → y'.get i = y.get i := by
  have key : Ok (arrayMatvech star op n a x y)
      (RowsSet op n (fun i => ∑ j ∈ range n, star (a.get (i * n + j)) * x.get j) y) := by
    unfold arrayMatvech
    split
    · simp only [Ok_bind, Ok_mulAt, Ok_opWr]
      refine ⟨by omega, by omega, by omega, rfl, ?_, ?_⟩
      · intro i hi
        obtain rfl : i = 0 := by omega
        simp
      · intro i hi
        rw [Arr.set_get_ne _ _ (by omega)]
    · simp only [Ok_bind, Ok_mulAt, Ok_opWr, lin2, Ok_pure, Arr.set_size]
      refine ⟨by omega, by omega, by omega, by omega, by omega, by omega, by omega, by omega, by omega, by omega,
        rfl, ?_, ?_⟩
      · intro i hi
        obtain rfl | rfl : i = 0 ∨ i = 1 := by omega
        all_goals simp [Arr.set_get, sum_range_succ]
      · intro i hi
        simp only [Arr.set_get]
        rw [if_neg (by omega), if_neg (by omega)]
    · simp only [Ok_bind, Ok_mulAt, Ok_opWr, lin2, lin3, Ok_pure, Arr.set_size]
      refine ⟨by omega, by omega, by omega, by omega, by omega, by omega, by omega, by omega, by omega, by omega,
        by omega, by omega, by omega, by omega, by omega, by omega, by omega, by omega, by omega, by omega, by omega,
        rfl, ?_, ?_⟩
      · intro i hi
        obtain rfl | rfl | rfl : i = 0 ∨ i = 1 ∨ i = 2 := by omega
        all_goals simp [Arr.set_get, sum_range_succ]
      · intro i hi
        simp only [Arr.set_get]
        rw [if_neg (by omega), if_neg (by omega), if_neg (by omega)]
    · refine denseRows_ok star _ op _ _ a x y ?_ hx hy
      intro i j hi hj
      have := flat_lt hi hj
      omega
  refine key.mono ?_
  rintro y' ⟨h1, h2, h3⟩
  refine ⟨h1, fun i => ?_, h3⟩
  rw [h2 i i.2]
  congr 1
  simp only [Matrix.mulVec, dotProduct, Matrix.conjTranspose_apply, Arr.mat, Arr.vec, Matrix.of_apply,
    Finset.sum_range]
  exact Finset.sum_congr rfl fun j _ => by rw [Nat.add_comm]

/-- the effect of the matrix products: elements `(i,j)`, `i < l`, `j < m`, combined with `t i j`, the others kept -/
def BlockSet (op : ArrOp) (l m ld : ℕ) (t : ℕ → ℕ → R) (c c' : Arr R) : Prop :=
  c'.size = c.size ∧
    (∀ i j, i < l → j < m → c'.get (i + j * ld) = op.app (c.get (i + j * ld)) (t i j)) ∧
    ∀ p, (∀ i j, i < l → j < m → p ≠ i + j * ld) → c'.get p = c.get p

omit [NonUnitalNonAssocRing R] in
theorem pos_inj {l ld i j i' j' : ℕ} (hl : l ≤ ld) (hi : i < l) (hi' : i' < l)
    (h : i + j * ld = i' + j' * ld) : i = i' ∧ j = j' := by
  have h1 : (i + j * ld) % ld = i := by rw [Nat.add_mul_mod_self_right]; exact Nat.mod_eq_of_lt (by omega)
  have h2 : (i' + j' * ld) % ld = i' := by rw [Nat.add_mul_mod_self_right]; exact Nat.mod_eq_of_lt (by omega)
  have h3 : i = i' := by rw [h, h2] at h1; exact h1.symm
  refine ⟨h3, ?_⟩
  have h4 : j * ld = j' * ld := by omega
  exact Nat.eq_of_mul_eq_mul_right (by omega : 0 < ld) h4

theorem arrayMatmatNs_ok (op : ArrOp) (l m n : ℕ) (a : Arr R) (lda : ℕ) (b : Arr R) (ldb : ℕ) (c : Arr R) (ldc : ℕ)
    (ha : ∀ i k, i < l → k < n → i + k * lda < a.size) (hb : ∀ k j, k < n → j < m → k + j * ldb < b.size)
    (hc : ∀ i j, i < l → j < m → i + j * ldc < c.size) (hl : l ≤ ldc) :
    Ok (arrayMatmatNs op l m n a lda b ldb c ldc)
      (BlockSet op l m ldc (fun i j => ∑ k ∈ range n, a.get (i + k * lda) * b.get (k + j * ldb)) c) := by
  unfold arrayMatmatNs
  refine Ok_loop (fun j' c' => BlockSet op l j' ldc
    (fun i j => ∑ k ∈ range n, a.get (i + k * lda) * b.get (k + j * ldb)) c c') ?_ ?_ ?_
  · exact ⟨rfl, fun i j _ h => absurd h (by omega), fun _ _ => rfl⟩
  · rintro j z _ hj ⟨hz, hg, ho⟩
    -- the start value of column `j`
    have init : Ok (match op with
        | .ins => loop 0 l z fun i c => c.wr (i + j * ldc) 0
        | _ => some z) (fun w : Arr R => w.size = c.size ∧
          (∀ i, i < l → w.get (i + j * ldc) = if op = .ins then 0 else c.get (i + j * ldc)) ∧
          ∀ p, (∀ i, i < l → p ≠ i + j * ldc) → w.get p = z.get p) := by
      have hold : ∀ i, i < l → z.get (i + j * ldc) = c.get (i + j * ldc) := by
        intro i hi
        refine ho _ fun i' j' hi' hj' h => ?_
        have := (pos_inj hl hi hi' h).2
        omega
      split
      · refine Ok_loop (fun k w => w.size = c.size ∧ (∀ i, i < k → w.get (i + j * ldc) = 0) ∧
          ∀ p, (∀ i, i < k → p ≠ i + j * ldc) → w.get p = z.get p) ?_ ?_ ?_
        · exact ⟨hz, fun i h => absurd h (by omega), fun _ _ => rfl⟩
        · rintro k w _ hk ⟨h1, h2, h3⟩
          rw [Ok_wr]
          refine ⟨by rw [h1]; exact hc k j hk hj, by simpa using h1, ?_, ?_⟩
          · intro i hi
            rw [Arr.set_get]
            split
            · rfl
            · next hne => exact h2 i (by rcases Nat.lt_succ_iff_lt_or_eq.mp hi with h | h; exact h; subst h; omega)
          · intro p hp
            rw [Arr.set_get_ne _ _ (hp k (by omega))]
            exact h3 p fun i hi => hp i (by omega)
        · rintro w ⟨h1, h2, h3⟩
          refine ⟨h1, fun i hi => ?_, fun p hp => h3 p fun i hi => hp i (by omega)⟩
          rw [if_pos rfl]
          exact h2 i (by omega)
      · next hop =>
        rw [Ok_some]
        refine ⟨hz, fun i hi => ?_, fun _ _ => rfl⟩
        rw [if_neg (by simpa using hop), hold i hi]
    rw [Ok_bind]
    refine init.mono ?_
    rintro w ⟨hw, hw0, hwo⟩
    let s : R → R := fun t => if op = .sub then -t else t
    refine Ok_loop_add (y0 := w) (fun k p => if (∃ i, i < l ∧ p = i + j * ldc) then
      s (a.get ((p - j * ldc) + k * lda) * b.get (k + j * ldb)) else 0) ?_ ?_
    · intro k u _ hk hu
      unfold addCol
      refine Ok_loop (fun i' v => v.size = w.size ∧ ∀ p, v.get p = u.get p +
        if (∃ i, i < i' ∧ p = i + j * ldc) then s (a.get ((p - j * ldc) + k * lda) * b.get (k + j * ldb)) else 0)
        ?_ ?_ ?_
      · refine ⟨hu, fun p => ?_⟩
        rw [if_neg (by rintro ⟨i, hi, _⟩; omega), add_zero]
      · rintro i v _ hi ⟨hv, hg⟩
        rw [Ok_bind, Ok_mulAt, Ok_opWr]
        refine ⟨ha i k hi hk, hb k j hk hj, by rw [hv, hw]; exact hc i j hi hj, hv, fun p => ?_⟩
        rw [Arr.set_get]
        by_cases hp : p = i + j * ldc
        · have e : i + j * ldc - j * ldc = i := by omega
          have h1 : ¬ ∃ i', i' < i ∧ i + j * ldc = i' + j * ldc := by rintro ⟨i', h1, h2⟩; omega
          have h2 : ∃ i', i' < i + 1 ∧ i + j * ldc = i' + j * ldc := ⟨i, by omega, rfl⟩
          subst hp
          have := hg (i + j * ldc)
          rw [if_neg h1, add_zero] at this
          rw [if_pos rfl, if_pos h2, e, this]
          cases op <;> simp [ArrOp.app, s, sub_eq_add_neg]
        · rw [if_neg hp, hg]
          congr 1
          by_cases h : ∃ i', i' < i ∧ p = i' + j * ldc
          · rw [if_pos h, if_pos (by obtain ⟨i', h1, h2⟩ := h; exact ⟨i', by omega, h2⟩)]
          · rw [if_neg h, if_neg (by
              rintro ⟨i', h1, h2⟩
              rcases Nat.lt_succ_iff_lt_or_eq.mp h1 with h3 | h3
              · exact h ⟨i', h3, h2⟩
              · subst h3; exact hp h2)]
      · rintro v ⟨h1, h2⟩
        refine ⟨h1, fun p => ?_⟩
        rw [h2]
        simp
    · intro v hv hg'
      refine ⟨by rw [hv, hw], fun i j' hi hj' => ?_, fun p hp => ?_⟩
      · rw [hg']
        by_cases hjj : j' = j
        · subst hjj
          have e : i + j' * ldc - j' * ldc = i := by omega
          rw [hw0 i hi, sum_Ico_zero]
          simp only [e]
          rw [Finset.sum_congr rfl fun k _ => if_pos ⟨i, hi, rfl⟩]
          cases op <;> simp [ArrOp.app, s, sub_eq_add_neg]
        · have hne : ∀ i', i' < l → i + j' * ldc ≠ i' + j * ldc := fun i' hi' h => hjj (pos_inj hl hi hi' h).2
          rw [hwo _ hne, hg i j' hi (by omega), Finset.sum_eq_zero, add_zero]
          intro k _
          rw [if_neg (by rintro ⟨i', h1, h2⟩; exact hne i' h1 h2)]
      · rw [hg', hwo p fun i hi => hp i j hi (by omega), ho p fun i j' hi hj' => hp i j' hi (by omega),
          Finset.sum_eq_zero, add_zero]
        intro k _
        rw [if_neg (by rintro ⟨i', h1, h2⟩; exact hp i' j h1 (by omega) h2)]
  · rintro z ⟨h1, h2, h3⟩
    exact ⟨h1, fun i j hi hj => h2 i j hi (by omega), fun p hp => h3 p fun i j hi hj => hp i j hi (by omega)⟩

/-- C20: `lis_array_matmat_ns`: `C op A B` with leading dimensions; nothing else in `c` changes -/
theorem arrayMatmatNs_spec (op : ArrOp) (l m n : ℕ) (a : Arr R) (lda : ℕ) (b : Arr R) (ldb : ℕ) (c : Arr R) (ldc : ℕ)
    (ha : ∀ i k, i < l → k < n → i + k * lda < a.size) (hb : ∀ k j, k < n → j < m → k + j * ldb < b.size)
    (hc : ∀ i j, i < l → j < m → i + j * ldc < c.size) (hl : l ≤ ldc) :
    Ok (arrayMatmatNs op l m n a lda b ldb c ldc) fun c' => c'.size = c.size ∧
      (∀ i j, c'.mat l m ldc i j = op.app (c.mat l m ldc i j) ((a.mat l n lda * b.mat n m ldb) i j)) ∧
      ∀ p, (∀ i j, i < l → j < m → p ≠ i + j * ldc) → c'.get p = c.get p := by
  refine (arrayMatmatNs_ok op l m n a lda b ldb c ldc ha hb hc hl).mono ?_
  rintro c' ⟨h1, h2, h3⟩
  refine ⟨h1, fun i j => ?_, h3⟩
  have := h2 i j i.2 j.2
  simp only [Arr.mat, Matrix.of_apply, this, Matrix.mul_apply, Finset.sum_range]

/-- C20: `lis_array_matmat`: `C op A B` for every `n`, including the unrolled ones -/
theorem arrayMatmat_spec (op : ArrOp) (n : ℕ) (a b c : Arr R) (ha : n * n ≤ a.size) (hb : n * n ≤ b.size)
    (hc : n * n ≤ c.size) :
    Ok (arrayMatmat op n a b c) fun c' => c'.size = c.size ∧
      (∀ i j, c'.mat n n n i j = op.app (c.mat n n n i j) ((a.mat n n n * b.mat n n n) i j)) ∧
      ∀ p, n * n ≤ p → c'.get p = c.get p := by
  have key : Ok (arrayMatmat op n a b c) (fun c' => c'.size = c.size ∧
      (∀ i j, i < n → j < n → c'.get (i + j * n) = op.app (c.get (i + j * n))
        (∑ k ∈ range n, a.get (i + k * n) * b.get (k + j * n))) ∧ ∀ p, n * n ≤ p → c'.get p = c.get p) := by
    unfold arrayMatmat
    split
    · simp only [Ok_bind, Ok_mulAt, Ok_opWr]
      refine ⟨by omega, by omega, by omega, rfl, ?_, ?_⟩
      · intro i j hi hj
        obtain rfl : i = 0 := by omega
        obtain rfl : j = 0 := by omega
        simp
      · intro i hi
        rw [Arr.set_get_ne _ _ (by omega)]
    · simp only [Ok_bind, Ok_mulAt, Ok_opWr, lin2, Ok_pure, Arr.set_size]
      iterate 20 refine And.intro (by omega) ?_
      refine ⟨trivial, ?_, ?_⟩
      · intro i j hi hj
        obtain rfl | rfl : i = 0 ∨ i = 1 := by omega
        all_goals obtain rfl | rfl : j = 0 ∨ j = 1 := by omega
        all_goals simp [Arr.set_get, sum_range_succ]
      · intro i hi
        simp only [Arr.set_get]
        repeat rw [if_neg (by omega)]
    · simp only [Ok_bind, Ok_mulAt, Ok_opWr, lin2, lin3, Ok_pure, Arr.set_size]
      iterate 63 refine And.intro (by omega) ?_
      refine ⟨trivial, ?_, ?_⟩
      · intro i j hi hj
        obtain rfl | rfl | rfl : i = 0 ∨ i = 1 ∨ i = 2 := by omega
        all_goals obtain rfl | rfl | rfl : j = 0 ∨ j = 1 ∨ j = 2 := by omega
        all_goals simp [Arr.set_get, sum_range_succ]
      · intro i hi
        simp only [Arr.set_get]
        repeat rw [if_neg (by omega)]
    · have lt : ∀ {i j}, i < n → j < n → i + j * n < n * n := fun hi hj => by
        have := flat_lt hj hi; omega
      refine (arrayMatmatNs_ok op n n n a n b n c n (fun i k hi hk => by have := lt hi hk; omega)
        (fun i k hi hk => by have := lt hi hk; omega) (fun i k hi hk => by have := lt hi hk; omega) le_rfl).mono ?_
      rintro c' ⟨h1, h2, h3⟩
      exact ⟨h1, h2, fun p hp => h3 p fun i j hi hj => by have := lt hi hj; omega⟩
  refine key.mono ?_
  rintro c' ⟨h1, h2, h3⟩
  refine ⟨h1, fun i j => ?_, h3⟩
  have := h2 i j i.2 j.2
  simp only [Arr.mat, Matrix.of_apply, this, Matrix.mul_apply, Finset.sum_range]
end


/-! ### concrete cases (`op` = subtract, an unrolled and a general size) -/

example : ∃ r, arrayMatvec .sub 2 (Arr.ofList [1, 2, 3, 4]) (Arr.ofList [5, 6]) (Arr.ofList [100, 100, 9] : Arr ℤ) = some r ∧
    r.toList = [77, 66, 9] := ⟨_, rfl, by decide⟩

example : ∃ r, arrayMatmat .add 2 (Arr.ofList [1, 2, 3, 4]) (Arr.ofList [5, 6, 7, 8])
    (Arr.ofList [1, 1, 1, 1] : Arr ℤ) = some r ∧ r.toList = [24, 35, 32, 47] := ⟨_, rfl, by decide⟩

example : ∃ r, arrayMatmatNs .ins 1 2 2 (Arr.ofList [1, 2, 3, 4]) 2 (Arr.ofList [5, 6, 7, 8]) 2
    (Arr.ofList [1, 1, 1, 1] : Arr ℤ) 2 = some r ∧ r.toList = [23, 1, 31, 1] := ⟨_, rfl, by decide⟩

end Lis
