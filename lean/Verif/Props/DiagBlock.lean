import Verif.Lemmas.DiagBlock
import Verif.Lemmas.Matvec3
import Verif.Props.ArraySolve
import Verif.Props.Array
import Verif.Props.Precon
import Verif.Spec.BlockJacobi

/-!
# Block diagonals: inverse, products (C66)
-/

namespace Lis
open Finset
variable {R : Type}

theorem Ok_atOff {o : ℕ} {f : Arr R → Option (Arr R)} {a : Arr R} {Q : Arr R → Prop} {Q' : Arr R → Prop}
    (h : Ok (f (a.ptrAt o)) Q) (hq : ∀ w, Q w → Q' (a.patch o w)) : Ok (atOff o f a) Q' := by
  unfold atOff
  rw [Ok_bind]
  exact h.mono fun w hw => by rw [Ok_pure]; exact hq w hw

section
variable [Field R]

theorem det_extend {k : ℕ} (M : Matrix (Fin (k + 1)) (Fin (k + 1)) R)
    (h : ∀ j, M (Fin.last k) j = if j = Fin.last k then 1 else 0) :
    M.det = (M.submatrix Fin.castSucc Fin.castSucc).det := by
  rw [Matrix.det_succ_row M (Fin.last k), Finset.sum_eq_single (Fin.last k)]
  · rw [h, if_pos rfl, Even.neg_one_pow ⟨_, rfl⟩, one_mul, one_mul]
    simp [Fin.succAbove_last]
  · intro j _ hj
    rw [h, if_neg hj]; ring
  · intro hh; simp at hh

/-- a block whose rows from `m` on are those of the identity -/
theorem minors_extend {n m : ℕ} {a : Arr R} (hm : m ≤ n) (h1 : ∀ k, k ≤ m → (a.mat k k n).det ≠ 0)
    (h2 : ∀ k, m ≤ k → k < n → ∀ j, j < n → a.get (k + j * n) = if j = k then 1 else 0) : LeadingMinors n a := by
  intro k
  induction k with
  | zero => intro _; exact h1 0 (by omega)
  | succ k ih =>
    intro hk
    by_cases hkm : k + 1 ≤ m
    · exact h1 _ hkm
    · rw [det_extend]
      · exact ih (by omega)
      · intro j
        have := j.2
        show a.get ((k : ℕ) + j * n) = _
        rw [h2 k (by omega) (by omega) j (by omega)]
        simp only [Fin.ext_iff, Fin.val_last]

end

section
variable [CommRing R]

/-- the block diagonals of `d` and `d'` are inverse to each other -/
def BlockInv (bn nr : ℕ) (d d' : Arr R) : Prop :=
  ∀ I, I < nr → ∀ r c, r < bn → c < bn →
    (∑ k ∈ range bn, d.get (I * (bn * bn) + k * bn + r) * d'.get (I * (bn * bn) + c * bn + k)) = (if r = c then 1 else 0) ∧
    (∑ k ∈ range bn, d'.get (I * (bn * bn) + k * bn + r) * d.get (I * (bn * bn) + c * bn + k)) = if r = c then 1 else 0

theorem BlockInv.diag {bn nr : ℕ} {d d' : Arr R} (h : BlockInv bn nr d d') {i j : ℕ} (hi : i < nr * bn)
    (hj : j < nr * bn) :
    (∑ k ∈ range (nr * bn), blockDiag bn d i k * blockDiag bn d' k j) = (if i = j then 1 else 0) ∧
    (∑ k ∈ range (nr * bn), blockDiag bn d' i k * blockDiag bn d k j) = if i = j then 1 else 0 := by
  have hb : 0 < bn := Nat.pos_of_ne_zero fun e => by rw [e] at hi; omega
  have hI : i / bn < nr := div_lt_of hi
  rw [blockDiag_sum hb _ _ hI, blockDiag_sum hb _ _ hI]
  by_cases e : i / bn = j / bn
  · have hij : (i = j) = (i % bn = j % bn) := by
      have h1 := Nat.div_add_mod i bn
      have h2 := Nat.div_add_mod j bn
      rw [e] at h1
      refine propext ⟨fun h => by rw [h], fun h => by omega⟩
    have := h (i / bn) hI (i % bn) (j % bn) (Nat.mod_lt _ hb) (Nat.mod_lt _ hb)
    simp only [hij]
    refine ⟨Eq.trans ?_ this.1, Eq.trans ?_ this.2⟩ <;>
    · refine sum_congr rfl fun k hk => ?_
      rw [mem_range] at hk
      rw [blockDiag, mul_add_div' hk, mul_add_mod'' hk, if_pos e]
  · have hij : i ≠ j := fun hh => e (by rw [hh])
    rw [if_neg hij]
    refine ⟨sum_eq_zero fun k hk => ?_, sum_eq_zero fun k hk => ?_⟩ <;>
    · rw [mem_range] at hk
      rw [blockDiag, mul_add_div' hk, if_neg e, mul_zero]

end

section
variable [Field R]

open Classical in
/-- the block diagonal `lis_matrix_diag_inverse` really inverts: diagonal elements beyond `n` are 1 -/
noncomputable def padOne (n bn nr : ℕ) (d : Arr R) : Arr R :=
  ⟨d.size, fun p => if bn ≠ 1 ∧ n % bn ≠ 0 ∧ ∃ i, n % bn ≤ i ∧ i < bn ∧ p = bn * bn * (nr - 1) + i * (bn + 1) then 1
    else d.get p⟩

/-- C66: `lis_matrix_diag_inverse` replaces every block by its inverse; positions beyond row `n` count as identity -/
theorem diagInverse_spec (junk : ℕ → ℕ → R) {n bn nr : ℕ} (hb : 0 < bn) (hnr : 0 < nr) {d : Arr R}
    (hd : nr * (bn * bn) ≤ d.size)
    (hm : ∀ I, I < nr → LeadingMinors bn ((padOne n bn nr d).ptrAt (I * (bn * bn)))) :
    Ok (diagInverse junk n bn nr d) fun d' => d'.size = d.size ∧ BlockInv bn nr (padOne n bn nr d) d' := by
  classical
  unfold diagInverse
  by_cases h1 : bn = 1
  · subst h1
    rw [if_pos rfl]
    refine (recipArr_spec (by omega)).mono ?_
    rintro d' ⟨a1, a2, -⟩
    refine ⟨a1, fun I hI r c hr hc => ?_⟩
    have h0 : d.get I ≠ 0 := by
      have := hm I hI 1 le_rfl
      simpa [Arr.mat, Arr.ptrAt, padOne] using this
    obtain rfl : r = 0 := by omega
    obtain rfl : c = 0 := by omega
    have := a2 I hI
    simp [padOne, this, h0]
  · rw [if_neg h1, Ok_bind]
    have hlast : bn * bn * (nr - 1) + bn * bn ≤ d.size := by
      rw [show bn * bn * (nr - 1) + bn * bn = nr * (bn * bn) by
        obtain ⟨m, rfl⟩ : ∃ m, nr = m + 1 := ⟨nr - 1, by omega⟩
        rw [Nat.add_sub_cancel, Nat.add_mul, Nat.one_mul, Nat.mul_comm m]]
      exact hd
    have hpad : Ok (padDiag n bn nr d) fun d1 => d1.size = d.size ∧ ∀ p, d1.get p = (padOne n bn nr d).get p := by
      unfold padDiag
      split
      · next hk =>
        refine Ok_loopDown (fun i (d1 : Arr R) => d1.size = d.size ∧ ∀ p, d1.get p =
          if ∃ i', i ≤ i' ∧ i' < bn ∧ p = bn * bn * (nr - 1) + i' * (bn + 1) then 1 else d.get p)
          (Nat.mod_lt _ hb).le ⟨rfl, fun p => ?_⟩ ?_ ?_
        · rw [if_neg]
          rintro ⟨i', h1, h2, -⟩; omega
        · rintro i d1 - hi ⟨b1, b2⟩
          rw [Ok_wr]
          have : i * (bn + 1) < bn * bn := by
            have := Nat.mul_le_mul_right bn (show i + 1 ≤ bn from hi)
            rw [Nat.add_mul, Nat.one_mul] at this
            rw [Nat.mul_add, Nat.mul_one]; omega
          refine ⟨by omega, b1, fun p => ?_⟩
          rw [Arr.set_get]
          by_cases hp : p = bn * bn * (nr - 1) + i * (bn + 1)
          · rw [if_pos hp, if_pos ⟨i, le_rfl, hi, hp⟩]
          · rw [if_neg hp, b2]
            refine if_congr ⟨?_, ?_⟩ rfl rfl
            · rintro ⟨i', c1, c2, c3⟩; exact ⟨i', by omega, c2, c3⟩
            · rintro ⟨i', c1, c2, c3⟩
              refine ⟨i', ?_, c2, c3⟩
              rcases Nat.lt_or_ge i i' with h' | h'
              · exact h'
              · obtain rfl : i' = i := by omega
                exact absurd c3 hp
        · rintro d1 ⟨b1, b2⟩
          refine ⟨b1, fun p => ?_⟩
          rw [b2]
          unfold padOne
          refine if_congr ?_ rfl rfl
          simp only [h1, hk, ne_eq, not_false_eq_true, true_and]
      · next hk =>
        rw [Ok_some]
        refine ⟨rfl, fun p => ?_⟩
        unfold padOne
        simp only
        rw [if_neg fun hh => hk hh.2.1]
    refine hpad.mono ?_
    rintro d1 ⟨s1, g1⟩
    obtain ⟨D, hD⟩ : ∃ D, D = padOne n bn nr d := ⟨_, rfl⟩
    rw [← hD] at g1 hm ⊢
    refine Ok_loop_le (fun i (u : Arr R) => u.size = d.size ∧ (∀ p, i * (bn * bn) ≤ p → u.get p = D.get p) ∧
      BlockInv bn i D u) (Nat.zero_le _) ⟨s1, fun p _ => g1 p, fun I hI => absurd hI (by omega)⟩ ?_
      fun u hu => ⟨hu.1, hu.2.2⟩
    rintro i u - hi ⟨u1, u2, u3⟩
    have hsz := Nat.mul_le_mul_right (bn * bn) (show i + 1 ≤ nr from hi)
    rw [Nat.add_mul, Nat.one_mul] at hsz
    have htail : LeadingMinors bn (u.ptrAt (i * (bn * bn))) := by
      intro k hk
      have := hm i hi k hk
      have e : (u.ptrAt (i * (bn * bn))).mat k k bn = (D.ptrAt (i * (bn * bn))).mat k k bn := by
        ext a b
        exact u2 _ (Nat.le_add_right _ _)
      rw [e]; exact this
    refine Ok_atOff (arrayGe_spec bn (junk i) (u.ptrAt (i * (bn * bn)))
      (by simp only [Arr.ptrAt]; omega) htail) ?_
    rintro w ⟨-, w2, w3, w4⟩
    refine ⟨u1, fun p hp => ?_, fun I hI r c hr hc => ?_⟩
    · rw [Nat.add_mul, Nat.one_mul] at hp
      simp only [Arr.patch]
      rw [if_neg (by omega), w4 _ (by omega), Arr.ptrAt]
      simp only
      rw [show i * (bn * bn) + (p - i * (bn * bn)) = p by omega]
      exact u2 p (by omega)
    · have hin : ∀ k l, k < bn → l < bn → k * bn + l < bn * bn := fun k l hk hl => blk_le hk hl
      rcases Nat.lt_succ_iff_lt_or_eq.mp hI with hI | rfl
      · have hI2 := Nat.mul_le_mul_right (bn * bn) (show I + 1 ≤ i from hI)
        rw [Nat.add_mul, Nat.one_mul] at hI2
        have := u3 I hI r c hr hc
        refine ⟨Eq.trans (sum_congr rfl fun k hk => ?_) this.1, Eq.trans (sum_congr rfl fun k hk => ?_) this.2⟩
        · rw [mem_range] at hk
          have := hin c k hc hk
          simp only [Arr.patch]
          rw [if_pos (by omega)]
        · rw [mem_range] at hk
          have := hin k r hk hr
          simp only [Arr.patch]
          rw [if_pos (by omega)]
      · have e2 := congrFun (congrFun w2 ⟨r, hr⟩) ⟨c, hc⟩
        have e3 := congrFun (congrFun w3 ⟨r, hr⟩) ⟨c, hc⟩
        rw [Matrix.mul_apply, Matrix.one_apply] at e2 e3
        simp only [Arr.mat, Matrix.of_apply, Fin.mk.injEq, Arr.ptrAt] at e2 e3
        rw [← Fin.sum_univ_eq_sum_range (fun k => D.get (I * (bn * bn) + k * bn + r) *
            (u.patch (I * (bn * bn)) w).get (I * (bn * bn) + c * bn + k)) bn,
          ← Fin.sum_univ_eq_sum_range (fun k => (u.patch (I * (bn * bn)) w).get (I * (bn * bn) + k * bn + r) *
            D.get (I * (bn * bn) + c * bn + k)) bn]
        refine ⟨Eq.trans (sum_congr rfl fun k _ => ?_) e2, Eq.trans (sum_congr rfl fun k _ => ?_) e3⟩
        · simp only [Arr.patch]
          rw [if_neg (by omega), u2 _ (Nat.le_add_right _ _),
            show I * (bn * bn) + k * bn + r = I * (bn * bn) + (r + k * bn) by omega,
            show I * (bn * bn) + c * bn + k - I * (bn * bn) = k + c * bn by omega]
        · simp only [Arr.patch]
          rw [if_neg (by omega), u2 _ (Nat.le_add_right _ _),
            show I * (bn * bn) + c * bn + k = I * (bn * bn) + (k + c * bn) by omega,
            show I * (bn * bn) + k * bn + r - I * (bn * bn) = r + k * bn by omega]

end

/-! ### products -/

section
variable [CommRing R]

/-- block row `I` of the result is right, everything else as before -/
def RowDone (bn : ℕ) (d x : Arr R) (I : ℕ) (y y' : Arr R) : Prop :=
  y'.size = y.size ∧ (∀ c, c < bn → y'.get (I * bn + c) =
    ∑ k ∈ range bn, d.get (I * (bn * bn) + k * bn + c) * x.get (I * bn + k)) ∧
  ∀ p, ¬ (I * bn ≤ p ∧ p < I * bn + bn) → y'.get p = y.get p

theorem rows_done {bn nr : ℕ} (hb : 0 < bn) {d x y : Arr R} {f : ℕ → Arr R → Option (Arr R)}
    (hf : ∀ I y1, I < nr → y1.size = y.size → Ok (f I y1) (RowDone bn d x I y1)) :
    Ok (loop 0 nr y f) fun y' => y'.size = y.size ∧
      IsMul (nr * bn) (nr * bn) (blockDiag bn d) x.get y'.get ∧ SameFrom (nr * bn) y.get y'.get := by
  refine Ok_loop_le (fun i (u : Arr R) => u.size = y.size ∧ (∀ p, p < i * bn →
    u.get p = ∑ j ∈ range (nr * bn), blockDiag bn d p j * x.get j) ∧ ∀ p, i * bn ≤ p → u.get p = y.get p)
    (Nat.zero_le _) ⟨rfl, fun p hp => by omega, fun _ _ => rfl⟩ ?_ fun u hu => hu
  rintro i u - hi ⟨u1, u2, u3⟩
  refine (hf i u hi u1).mono ?_
  rintro v ⟨v1, v2, v3⟩
  refine ⟨by omega, fun p hp => ?_, fun p hp => ?_⟩
  · rw [Nat.add_mul, Nat.one_mul] at hp
    by_cases hlt : p < i * bn
    · rw [v3 p (by omega), u2 p hlt]
    · have hc : p - i * bn < bn := by omega
      have hq : p / bn = i := (div_iff hb).1 (by omega)
      rw [blockDiag_sum hb _ _ (by rw [hq]; exact hi), hq, ← sub_div hq, ← v2 _ hc]
      congr 1; omega
  · rw [Nat.add_mul, Nat.one_mul] at hp
    rw [v3 p (by omega), u3 p (by omega)]

/-- C66: `lis_matrix_diag_matvec` is the product with the block diagonal, for every block size (1 to 4 unrolled) -/
theorem diagMatvec_spec {bn nr : ℕ} (hb : 0 < bn) {d x y : Arr R} (hd : nr * (bn * bn) ≤ d.size)
    (hx : nr * bn ≤ x.size) (hy : nr * bn ≤ y.size) :
    Ok (diagMatvec bn nr d x y) fun y' => y'.size = y.size ∧
      IsMul (nr * bn) (nr * bn) (blockDiag bn d) x.get y'.get ∧ SameFrom (nr * bn) y.get y'.get := by
  unfold diagMatvec
  split
  · refine rows_done hb fun I y1 hI hs => ?_
    rw [Ok_bind, Ok_rd, Ok_bind, Ok_rd, Ok_wr]
    refine ⟨by omega, by omega, by omega, rfl, fun c hc => ?_, fun p hp => Arr.set_get_ne _ _ (by omega)⟩
    obtain rfl : c = 0 := by omega
    simp [mul_comm]
  · refine rows_done hb fun I y1 hI hs => ?_
    simp only [lin2, Ok_bind, Ok_mulAt, Ok_wr, Ok_pure, Arr.set_size]
    refine ⟨by omega, by omega, by omega, by omega, by omega, by omega, by omega, by omega, by omega, by omega, rfl, ?_, ?_⟩
    · intro c hc
      have : c = 0 ∨ c = 1 := by omega
      rcases this with rfl | rfl <;>
        simp only [Arr.set_get, sum_range_succ, sum_range_zero, zero_add, id] <;> split_ifs <;>
        first
        | (exfalso; omega)
        | (congr 3 <;> ring_nf)
    · intro p hp
      rw [Arr.set_get_ne _ _ (by omega), Arr.set_get_ne _ _ (by omega)]
  · refine rows_done hb fun I y1 hI hs => ?_
    simp only [lin3, lin2, Ok_bind, Ok_mulAt, Ok_wr, Ok_pure, Arr.set_size]
    refine ⟨by omega, by omega, by omega, by omega, by omega, by omega, by omega, by omega, by omega, by omega, by omega,
      by omega, by omega, by omega, by omega, by omega, by omega, by omega, by omega, by omega, by omega, rfl, ?_, ?_⟩
    · intro c hc
      have : c = 0 ∨ c = 1 ∨ c = 2 := by omega
      have e1 : ∀ k c, I * (3 * 3) + k * 3 + c = 9 * I + 3 * k + c := fun k c => by omega
      have e2 : ∀ k, I * 3 + k = 3 * I + k := fun k => by omega
      rcases this with rfl | rfl | rfl <;>
        simp only [Arr.set_get, sum_range_succ, sum_range_zero, zero_add, id] <;> split_ifs <;>
        first
        | (exfalso; omega)
        | simp only [e1, e2, Nat.add_assoc, Nat.reduceAdd, Nat.reduceMul, Nat.add_zero, Nat.mul_comm I]
    · intro p hp
      rw [Arr.set_get_ne _ _ (by omega), Arr.set_get_ne _ _ (by omega), Arr.set_get_ne _ _ (by omega)]
  · refine rows_done hb fun I y1 hI hs => ?_
    simp only [lin3, lin2, Ok_bind, Ok_mulAt, Ok_wr, Ok_pure, Arr.set_size]
    refine ⟨by omega, by omega, by omega, by omega, by omega, by omega, by omega, by omega, by omega, by omega, by omega,
      by omega, by omega, by omega, by omega, by omega, by omega, by omega, by omega, by omega, by omega, by omega,
      by omega, by omega, by omega, by omega, by omega, by omega, by omega, by omega, by omega, by omega, by omega,
      by omega, by omega, by omega, rfl, ?_, ?_⟩
    · intro c hc
      have : c = 0 ∨ c = 1 ∨ c = 2 ∨ c = 3 := by omega
      have e1 : ∀ k c, I * (4 * 4) + k * 4 + c = 16 * I + 4 * k + c := fun k c => by omega
      have e2 : ∀ k, I * 4 + k = 4 * I + k := fun k => by omega
      rcases this with rfl | rfl | rfl | rfl <;>
        simp only [Arr.set_get, sum_range_succ, sum_range_zero, zero_add, id] <;> split_ifs <;>
        first
        | (exfalso; omega)
        | simp only [e1, e2, Nat.add_assoc, Nat.reduceAdd, Nat.reduceMul, Nat.add_zero, Nat.mul_comm I]
    · intro p hp
      rw [Arr.set_get_ne _ _ (by omega), Arr.set_get_ne _ _ (by omega), Arr.set_get_ne _ _ (by omega),
        Arr.set_get_ne _ _ (by omega)]
  · refine rows_done hb fun I y1 hI hs => ?_
    have h1 := Nat.mul_le_mul_right (bn * bn) (show I + 1 ≤ nr from hI)
    have h2 := Nat.mul_le_mul_right bn (show I + 1 ≤ nr from hI)
    rw [Nat.add_mul, Nat.one_mul] at h1 h2
    refine Ok_atOff (arrayMatvec_spec .ins bn (d.ptrAt (I * (bn * bn))) (x.ptrAt (I * bn)) (y1.ptrAt (I * bn))
      (by simp only [Arr.ptrAt]; omega) (by simp only [Arr.ptrAt]; omega) (by simp only [Arr.ptrAt]; omega)) ?_
    rintro w ⟨-, w2, w3⟩
    refine ⟨rfl, fun c hc => ?_, fun p hp => ?_⟩
    · simp only [Arr.patch]
      rw [if_neg (by omega), Nat.add_sub_cancel_left]
      have := w2 ⟨c, hc⟩
      simp only at this
      rw [this, ← Fin.sum_univ_eq_sum_range (fun k => d.get (I * (bn * bn) + k * bn + c) * x.get (I * bn + k)) bn]
      simp only [ArrOp.app, Matrix.mulVec, dotProduct, Arr.mat, Arr.vec, Arr.ptrAt, Matrix.of_apply]
      refine sum_congr rfl fun k _ => ?_
      rw [show I * (bn * bn) + (c + k * bn) = I * (bn * bn) + k * bn + c by omega]
    · simp only [Arr.patch]
      split
      · rfl
      · rw [w3 _ (by omega)]
        simp only [Arr.ptrAt]
        rw [show I * bn + (p - I * bn) = p by omega]

/-- C66: `lis_matrix_diag_matvech` is the product with the conjugate transpose of the block diagonal -/
theorem diagMatvech_spec [StarRing R] {bn nr : ℕ} (hb : 0 < bn) {d x y : Arr R} (hd : nr * (bn * bn) ≤ d.size)
    (hx : nr * bn ≤ x.size) (hy : nr * bn ≤ y.size) :
    Ok (diagMatvech star bn nr d x y) fun y' => y'.size = y.size ∧
      IsMulH (nr * bn) (nr * bn) (blockDiag bn d) x.get y'.get ∧ SameFrom (nr * bn) y.get y'.get := by
  unfold diagMatvech
  refine Ok_loop_le (fun i (u : Arr R) => u.size = y.size ∧ (∀ p, p < i * bn →
    u.get p = ∑ j ∈ range (nr * bn), star (blockDiag bn d j p) * x.get j) ∧ ∀ p, i * bn ≤ p → u.get p = y.get p)
    (Nat.zero_le _) ⟨rfl, fun p hp => by omega, fun _ _ => rfl⟩ ?_ fun u hu => hu
  rintro I y1 - hI ⟨u1, u2, u3⟩
  have h1 := Nat.mul_le_mul_right (bn * bn) (show I + 1 ≤ nr from hI)
  have h2 := Nat.mul_le_mul_right bn (show I + 1 ≤ nr from hI)
  rw [Nat.add_mul, Nat.one_mul] at h1 h2
  refine Ok_atOff (arrayMatvech_spec .ins bn (d.ptrAt (I * (bn * bn))) (x.ptrAt (I * bn)) (y1.ptrAt (I * bn))
    (by simp only [Arr.ptrAt]; omega) (by simp only [Arr.ptrAt]; omega) (by simp only [Arr.ptrAt]; omega)) ?_
  rintro w ⟨-, w2, w3⟩
  refine ⟨u1, fun p hp => ?_, fun p hp => ?_⟩
  · rw [Nat.add_mul, Nat.one_mul] at hp
    simp only [Arr.patch]
    by_cases hlt : p < I * bn
    · rw [if_pos hlt, u2 p hlt]
    · rw [if_neg hlt]
      have hc : p - I * bn < bn := by omega
      have hq : p / bn = I := (div_iff hb).1 (by omega)
      have := w2 ⟨p - I * bn, hc⟩
      simp only at this
      rw [this, sum_range_blocks, sum_eq_single I]
      · simp only [ArrOp.app, Matrix.mulVec, dotProduct, Arr.mat, Arr.vec, Arr.ptrAt, Matrix.conjTranspose_apply,
          Matrix.of_apply]
        rw [← Fin.sum_univ_eq_sum_range (fun k => star (blockDiag bn d (I * bn + k) p) * x.get (I * bn + k)) bn]
        refine sum_congr rfl fun k _ => ?_
        have hk := k.2
        rw [blockDiag, mul_add_div' hk, mul_add_mod'' hk, if_pos hq.symm, ← sub_div hq,
          show I * (bn * bn) + (p - I * bn) * bn + (k : ℕ) = I * (bn * bn) + (k + (p - I * bn) * bn) by omega]
      · intro q _ hqI
        refine sum_eq_zero fun c hc' => ?_
        rw [mem_range] at hc'
        rw [blockDiag, mul_add_div' hc', if_neg (fun hh => hqI (hh.trans hq)), star_zero, zero_mul]
      · intro hh; simp at hh; omega
  · rw [Nat.add_mul, Nat.one_mul] at hp
    simp only [Arr.patch]
    rw [if_neg (by omega), w3 _ (by omega)]
    simp only [Arr.ptrAt]
    rw [show I * bn + (p - I * bn) = p by omega, u3 p (by omega)]

omit [CommRing R] in
/-- C66: `lis_matrix_diag_copy` -/
theorem diagCopy_spec {bn nr : ℕ} {x y : Arr R} (hx : nr * (bn * bn) ≤ x.size) (hy : nr * (bn * bn) ≤ y.size) :
    Ok (diagCopy bn nr x y) fun y' => y'.size = y.size ∧ (∀ p, p < nr * (bn * bn) → y'.get p = x.get p) ∧
      SameFrom (nr * (bn * bn)) y.get y'.get := by
  unfold diagCopy
  refine Ok_loop_le (fun i (u : Arr R) => u.size = y.size ∧ (∀ p, p < i * (bn * bn) → u.get p = x.get p) ∧
    ∀ p, i * (bn * bn) ≤ p → u.get p = y.get p) (Nat.zero_le _) ⟨rfl, fun p hp => by omega, fun _ _ => rfl⟩ ?_
    fun u hu => hu
  rintro i u - hi ⟨u1, u2, u3⟩
  have h1 := Nat.mul_le_mul_right (bn * bn) (show i + 1 ≤ nr from hi)
  rw [Nat.add_mul, Nat.one_mul] at h1
  refine (Ok_cpy (by omega) (by omega)).mono ?_
  rintro v ⟨v1, v2, v3⟩
  refine ⟨by omega, fun p hp => ?_, fun p hp => ?_⟩
  · rw [Nat.add_mul, Nat.one_mul] at hp
    by_cases hlt : p < i * (bn * bn)
    · rw [v3 p (by omega), u2 p hlt]
    · have := v2 (p - i * (bn * bn)) (by omega)
      rwa [show i * (bn * bn) + (p - i * (bn * bn)) = p by omega] at this
  · rw [Nat.add_mul, Nat.one_mul] at hp
    rw [v3 p (by omega), u3 p (by omega)]

end
end Lis
