import Verif.Props.SolvehBsr

/-!
# Triangular sweeps over any storage

`E` is the strict triangle as a matrix; the storage only has to provide the effect of one row.
-/

namespace Lis
open Finset
variable {R : Type}

section gather
variable [CommRing R]

/-- `Σ_{j<n} E i j u j` -/
def dotRow (n : ℕ) (E : ℕ → ℕ → R) (i : ℕ) (u : ℕ → R) : R := ∑ j ∈ range n, E i j * u j

theorem gatherUp {n b x : ℕ} {E : ℕ → ℕ → R} (hE : ∀ i j, i < n → j < n → i ≤ j → E i j = 0) {wd : ℕ → R} {D : ℕ → R}
    (hwd : ∀ i, i < n → D i * wd i = 1) {h : Vecs R} {body : ℕ → Vecs R → Option (Vecs R)}
    (hb : ∀ i h', i < n → OnlyChanged h x n h' →
      Ok (body i h') fun h'' => h'' = h'.upd x i (((h' b).value.get i - dotRow n E i (h' x).value.get) * wd i)) :
    Ok (loop 0 n h body) fun h' => OnlyChanged h x n h' ∧ SolvesTri n D E (h'.el x) (h.el b) := by
  refine Ok_sweepUp (x := x) (fun i u => ((h b).value.get i - dotRow n E i u) * wd i) ?_ ?_ ?_
  · intro i u v hi huv
    beta_reduce; unfold dotRow
    congr 2
    refine sum_congr rfl fun j hj => ?_
    rw [mem_range] at hj
    by_cases hji : j < i
    · rw [huv j hji]
    · rw [hE i j hi hj (by omega), zero_mul, zero_mul]
  · intro i h' hi hc hlat
    refine (hb i h' hi hc).mono ?_
    rintro _ rfl; rw [hlat b i le_rfl]
  · intro h' hc he
    exact ⟨hc, solves_of_eq hwd he⟩

theorem gatherDown {n b x : ℕ} {E : ℕ → ℕ → R} (hE : ∀ i j, i < n → j < n → j ≤ i → E i j = 0) {wd : ℕ → R} {D : ℕ → R}
    (hwd : ∀ i, i < n → D i * wd i = 1) {h : Vecs R} {body : ℕ → Vecs R → Option (Vecs R)}
    (hb : ∀ i h', i < n → OnlyChanged h x n h' →
      Ok (body i h') fun h'' => h'' = h'.upd x i (((h' b).value.get i - dotRow n E i (h' x).value.get) * wd i)) :
    Ok (loopDown 0 n h body) fun h' => OnlyChanged h x n h' ∧ SolvesTri n D E (h'.el x) (h.el b) := by
  refine Ok_sweepDown (x := x) (fun i u => ((h b).value.get i - dotRow n E i u) * wd i) ?_ ?_ ?_
  · intro i u v hi huv
    beta_reduce; unfold dotRow
    congr 2
    refine sum_congr rfl fun j hj => ?_
    rw [mem_range] at hj
    by_cases hji : i < j
    · rw [huv j hji hj]
    · rw [hE i j hi hj (by omega), zero_mul, zero_mul]
  · intro i h' hi hc hlat
    refine (hb i h' hi hc).mono ?_
    rintro _ rfl; rw [hlat b i le_rfl]
  · intro h' hc he
    exact ⟨hc, solves_of_eq hwd he⟩

/-- the second SSOR sweep: `x[i] -= (Σ E i j x[j]) * wd[i]` -/
theorem gatherSsor {n x : ℕ} {E : ℕ → ℕ → R} (hE : ∀ i j, i < n → j < n → j ≤ i → E i j = 0) {wd : ℕ → R} {D : ℕ → R}
    (hwd : ∀ i, i < n → D i * wd i = 1) {h : Vecs R} {body : ℕ → Vecs R → Option (Vecs R)}
    (hb : ∀ i h', i < n → OnlyChanged h x n h' →
      Ok (body i h') fun h'' => h'' = h'.upd x i ((h' x).value.get i - dotRow n E i (h' x).value.get * wd i)) :
    Ok (loopDown 0 n h body) fun h' => OnlyChanged h x n h' ∧
      SolvesTri n D E (h'.el x) fun i => D i * h.el x i := by
  refine Ok_sweepDown (x := x) (fun i u => (h x).value.get i - dotRow n E i u * wd i) ?_ ?_ ?_
  · intro i u v hi huv
    beta_reduce; unfold dotRow
    congr 2
    refine sum_congr rfl fun j hj => ?_
    rw [mem_range] at hj
    by_cases hji : i < j
    · rw [huv j hji hj]
    · rw [hE i j hi hj (by omega), zero_mul, zero_mul]
  · intro i h' hi hc hlat
    refine (hb i h' hi hc).mono ?_
    rintro _ rfl; rw [hlat x i le_rfl]
  · intro h' hc he
    refine ⟨hc, fun i hi => ?_⟩
    have e := he i hi
    have h2 := hwd i hi
    unfold dotRow at e
    simp only [Vecs.el]
    linear_combination D i * e - (∑ j ∈ range n, E i j * (h' x).value.get j) * h2

end gather

section scatter
variable [CommRing R]

/-- the slots `lo … hi-1` of one row: `x[c k] -= w k * t` -/
theorem scatterSlots {lo hi i n x : ℕ} (hlh : lo ≤ hi) {c : ℕ → ℕ} {w : ℕ → R} {T : R} {h0 h : Vecs R} (h0c : OnlyChanged h0 x n h)
    (hc : ∀ k, lo ≤ k → k < hi → c k < n) (hself : ∀ k, lo ≤ k → k < hi → c k = i → w k = 0)
    {f : ℕ → Vecs R → Option (Vecs R)}
    (hf : ∀ k h', lo ≤ k → k < hi → (h' x).value.size = (h x).value.size → (h' x).value.get i = (h x).value.get i →
      Ok (f k h') fun h'' => h'' = h'.upd x (c k) ((h' x).value.get (c k) - w k * T)) :
    Ok (loop lo hi h f) fun h' => OnlyChanged h0 x n h' ∧
      ∀ a, (h' x).value.get a = (h x).value.get a - (∑ k ∈ Ico lo hi, if c k = a then w k else 0) * T := by
  refine Ok_loop_le (fun m h' => OnlyChanged h0 x n h' ∧ (h' x).value.size = (h x).value.size ∧
    ∀ a, (h' x).value.get a = (h x).value.get a - (∑ k ∈ Ico lo m, if c k = a then w k else 0) * T) hlh
    ⟨h0c, rfl, by simp⟩ ?_ fun h' ⟨a, _, b⟩ => ⟨a, b⟩
  rintro k h' k1 k2 ⟨a1, a2, a3⟩
  refine (hf k h' k1 k2 a2 ?_).mono ?_
  · rw [a3, sum_eq_zero, zero_mul, sub_zero]
    intro j hj
    rw [mem_Ico] at hj
    split
    · next e => exact hself j hj.1 (by omega) e
    · rfl
  · rintro _ rfl
    refine ⟨a1.upd (hc k k1 k2) _, by simp [Vecs.upd, a2], fun a => ?_⟩
    rw [upd_get, sum_Ico_succ_top k1]
    split
    · next e => rw [e, if_pos rfl, a3]; ring
    · next e => rw [if_neg fun hh => e hh.symm, a3, add_zero]

end scatter

section sweeps
variable [CommRing R] [StarRing R]

/-- the diagonal as an array -/
def diagArr (n : ℕ) (D : ℕ → R) : Arr R := ⟨n, D⟩

theorem blockInv_one {n : ℕ} {D : ℕ → R} {wd : Arr R} (hwd : ∀ i, i < n → D i * wd.get i = 1) :
    BlockInv 1 n (diagArr n D) wd := by
  intro I hI r c hr hc
  have hr0 : r = 0 := by omega
  have hc0 : c = 0 := by omega
  subst hr0 hc0
  simp only [sum_range_one, mul_one, zero_mul, add_zero, if_true, diagArr]
  exact ⟨hwd I hI, by rw [mul_comm]; exact hwd I hI⟩

theorem wdH_one (wd : Arr R) (i : ℕ) (u : ℕ → R) : wdH wd 1 i u 0 = star (wd.get i) * u i := by
  simp [wdH]

/-- one row of a sweep: `t = x[i]*conj(wd[i])`, `x[i] = t` if the sweep stores it, then `x[a] -= conj(E i a) * t` -/
theorem rowH_one {n x i : ℕ} {store : Bool} {E : ℕ → ℕ → R} {wd : Arr R} {v v' : Vecs R}
    (ho : OnlyChanged v x n v')
    (hv : ∀ a, a < n → (v' x).value.get a = (if a = i ∧ store = true then (v x).value.get i * star (wd.get i) else (v x).value.get a)
      - star (E i a) * ((v x).value.get i * star (wd.get i))) : RowH n 1 store E wd x i v v' := by
  refine ⟨by rw [mul_one]; exact ho, fun a ha => ?_⟩
  rw [mul_one] at ha ⊢
  rw [hv a ha, sum_range_one, add_zero, wdH_one, mul_comm (star (wd.get i))]
  congr 1
  by_cases e : a = i
  · subst e
    rw [if_pos (show a ≤ a ∧ a < a + 1 by omega), Nat.sub_self, wdH_one]
    cases store
    · simp
    · simp [mul_comm]
  · rw [if_neg (fun hh => e hh.1), if_neg (by omega)]

theorem solvesH_one {n : ℕ} {D : ℕ → R} {E : ℕ → ℕ → R} {x y : ℕ → R}
    (h : SolvesTriMH (n * 1) (blockDiag 1 (diagArr n D)) E x y) : SolvesTriH n D E x y := by
  intro i hi
  have := h i (by omega)
  rw [mul_one] at this
  rw [← this]
  congr 1
  rw [sum_eq_single i]
  · simp [blockDiag, diagArr, Nat.mod_one]
  · intro j _ hj
    have : ¬ j = i := hj
    simp [blockDiag, this]
  · intro hh; exact absurd (mem_range.2 hi) hh

theorem diag_one {n : ℕ} {D : ℕ → R} {t : ℕ → R} {i : ℕ} (hi : i < n) :
    ∑ j ∈ range (n * 1), star (blockDiag 1 (diagArr n D) j i) * t j = star (D i) * t i := by
  rw [mul_one, sum_eq_single i]
  · simp [blockDiag, diagArr, Nat.mod_one]
  · intro j _ hj
    have : ¬ j = i := hj
    simp [blockDiag, this]
  · intro hh; exact absurd (mem_range.2 hi) hh

/-- column-oriented forward sweep that stores: `(D+E)ᴴ x = y` -/
theorem scatterUp {n x : ℕ} {E : ℕ → ℕ → R} (hE : ∀ i j, i < n → j ≤ i → E i j = 0) {wd : Arr R} {D : ℕ → R}
    (hwd : ∀ i, i < n → D i * wd.get i = 1) {h0 : Vecs R} {body : ℕ → Vecs R → Option (Vecs R)}
    (hbody : ∀ i h, i < n → OnlyChanged h0 x n h → Ok (body i h) (RowH n 1 true E wd x i h)) :
    Ok (loop 0 n h0 body) fun h => OnlyChanged h0 x n h ∧ SolvesTriH n D E (h.el x) (h0.el x) := by
  refine (sweepHUp (nr := n) (b := 1) (store := true) (E := E) one_pos (blockInv_one hwd)
    (fun i j hi hj => hE i j (by omega) (by simpa using hj)) (fun i h hi hc => hbody i h hi (by rwa [mul_one] at hc))).mono ?_
  rintro h ⟨a, t, s⟩
  exact ⟨by rwa [mul_one] at a, solvesH_one s.solves⟩

/-- column-oriented backward sweep that stores -/
theorem scatterDown {n x : ℕ} {E : ℕ → ℕ → R} (hE : ∀ i j, i < n → i ≤ j → E i j = 0) {wd : Arr R} {D : ℕ → R}
    (hwd : ∀ i, i < n → D i * wd.get i = 1) {h0 : Vecs R} {body : ℕ → Vecs R → Option (Vecs R)}
    (hbody : ∀ i h, i < n → OnlyChanged h0 x n h → Ok (body i h) (RowH n 1 true E wd x i h)) :
    Ok (loopDown 0 n h0 body) fun h => OnlyChanged h0 x n h ∧ SolvesTriH n D E (h.el x) (h0.el x) := by
  refine (sweepHDown (nr := n) (b := 1) (store := true) (E := E) one_pos (blockInv_one hwd)
    (fun i j hi hj => hE i j (by omega) (by simpa using hj)) (fun i h hi hc => hbody i h hi (by rwa [mul_one] at hc))).mono ?_
  rintro h ⟨a, t, s⟩
  exact ⟨by rwa [mul_one] at a, solvesH_one s.solves⟩

/-- forward sweep that does not store: `x` becomes `Dᴴ y` with `(D+E)ᴴ y = x` -/
theorem scatterHalf {n x : ℕ} {E : ℕ → ℕ → R} (hE : ∀ i j, i < n → j ≤ i → E i j = 0) {wd : Arr R} {D : ℕ → R}
    (hwd : ∀ i, i < n → D i * wd.get i = 1) {h0 : Vecs R} {body : ℕ → Vecs R → Option (Vecs R)}
    (hbody : ∀ i h, i < n → OnlyChanged h0 x n h → Ok (body i h) (RowH n 1 false E wd x i h)) :
    Ok (loop 0 n h0 body) fun h => OnlyChanged h0 x n h ∧ ∃ y, SolvesTriH n D E y (h0.el x) ∧
      ∀ i, i < n → h.el x i = star (D i) * y i := by
  refine (sweepHUp (nr := n) (b := 1) (store := false) (E := E) one_pos (blockInv_one hwd)
    (fun i j hi hj => hE i j (by omega) (by simpa using hj)) (fun i h hi hc => hbody i h hi (by rwa [mul_one] at hc))).mono ?_
  rintro h ⟨a, t, s⟩
  refine ⟨by rwa [mul_one] at a, t, solvesH_one s.half.1, fun i hi => ?_⟩
  exact (s.half.2 i (by omega)).trans (diag_one hi)

end sweeps
end Lis
