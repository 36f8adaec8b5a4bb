import Verif.Lemmas.Vector
import Verif.Model.Ranges
import Verif.Props.Ranges
import Mathlib.Algebra.Order.Ring.Int
import Mathlib.Tactic.Linarith

/-!
# C18: vector operations are element-wise, reductions are sums

Handles `x y z` may coincide.  `Assigned h z g h'` (Lemmas/Vector) says: `h'` equals `h` except that the first
`n` elements of vector `z` (its length) are `g 0, …, g (n-1)`.
-/

namespace Lis
open Finset
variable {R S : Type}

/-- element `i` of vector `v` -/
def Vecs.el (h : Vecs R) (v i : ℕ) : R := (h v).value.get i

/-- the value block of `v` holds at least its `n` elements -/
def Vecs.WF (h : Vecs R) (v : ℕ) : Prop := (h v).n ≤ (h v).value.size
instance (h : Vecs R) (v : ℕ) : Decidable (h.WF v) := inferInstanceAs (Decidable (_ ≤ _))

theorem vectorCopy_spec (h : Vecs R) (x y : ℕ) (hx : h.WF x) (hy : h.WF y) (hn : (h x).n = (h y).n) :
    Ok (vectorCopy x y h) fun r => r.1 = .success ∧ Assigned h y (fun i => h.el x i) r.2 := by
  unfold vectorCopy
  rw [if_neg (by simp [hn]), Ok_bind]
  refine Ok_elem (fun i => h.el x i) hn.symm (by rw [hn]; exact hy) (fun i h' hi hI => ?_) (fun h' hA => ?_)
  · rw [vrd_eq hI hi hx]; rfl
  · rw [Ok_pure]; exact ⟨rfl, hA⟩

theorem vectorAxpy_spec [Add R] [Mul R] (al : R) (h : Vecs R) (x y : ℕ) (hx : h.WF x) (hy : h.WF y)
    (hn : (h x).n = (h y).n) :
    Ok (vectorAxpy al x y h) fun r =>
      r.1 = .success ∧ Assigned h y (fun i => h.el y i + al * h.el x i) r.2 := by
  unfold vectorAxpy
  rw [if_neg (by simp [hn]), Ok_bind]
  refine Ok_elem (fun i => h.el y i + al * h.el x i) hn.symm (by rw [hn]; exact hy) (fun i h' hi hI => ?_)
    (fun h' hA => ?_)
  · rw [vrd_eq hI hi hx, vrd_eq hI hi (by rw [hn]; exact hy)]; rfl
  · rw [Ok_pure]; exact ⟨rfl, hA⟩

theorem vectorXpay_spec [Add R] [Mul R] (al : R) (h : Vecs R) (x y : ℕ) (hx : h.WF x) (hy : h.WF y)
    (hn : (h x).n = (h y).n) :
    Ok (vectorXpay x al y h) fun r =>
      r.1 = .success ∧ Assigned h y (fun i => h.el x i + al * h.el y i) r.2 := by
  unfold vectorXpay
  rw [if_neg (by simp [hn]), Ok_bind]
  refine Ok_elem (fun i => h.el x i + al * h.el y i) hn.symm (by rw [hn]; exact hy) (fun i h' hi hI => ?_)
    (fun h' hA => ?_)
  · rw [vrd_eq hI hi hx, vrd_eq hI hi (by rw [hn]; exact hy)]; rfl
  · rw [Ok_pure]; exact ⟨rfl, hA⟩

theorem vectorAxpyz_spec [Add R] [Mul R] (al : R) (h : Vecs R) (x y z : ℕ) (hx : h.WF x) (hy : h.WF y)
    (hz : h.WF z) (hn : (h x).n = (h y).n) (hn' : (h x).n = (h z).n) :
    Ok (vectorAxpyz al x y z h) fun r =>
      r.1 = .success ∧ Assigned h z (fun i => al * h.el x i + h.el y i) r.2 := by
  unfold vectorAxpyz
  rw [if_neg (by simp [← hn, ← hn']), Ok_bind]
  refine Ok_elem (fun i => al * h.el x i + h.el y i) hn'.symm (by rw [hn']; exact hz) (fun i h' hi hI => ?_)
    (fun h' hA => ?_)
  · rw [vrd_eq hI hi hx, vrd_eq hI hi (by rw [hn]; exact hy)]; rfl
  · rw [Ok_pure]; exact ⟨rfl, hA⟩

theorem vectorPmul_spec [Mul R] (h : Vecs R) (x y z : ℕ) (hx : h.WF x) (hy : h.WF y)
    (hz : h.WF z) (hn : (h x).n = (h y).n) (hn' : (h x).n = (h z).n) :
    Ok (vectorPmul x y z h) fun r => r.1 = .success ∧ Assigned h z (fun i => h.el x i * h.el y i) r.2 := by
  unfold vectorPmul
  rw [if_neg (by simp [← hn, ← hn']), Ok_bind]
  refine Ok_elem (fun i => h.el x i * h.el y i) hn'.symm (by rw [hn']; exact hz) (fun i h' hi hI => ?_)
    (fun h' hA => ?_)
  · rw [vrd_eq hI hi hx, vrd_eq hI hi (by rw [hn]; exact hy)]; rfl
  · rw [Ok_pure]; exact ⟨rfl, hA⟩

theorem vectorPdiv_spec [Div R] (h : Vecs R) (x y z : ℕ) (hx : h.WF x) (hy : h.WF y)
    (hz : h.WF z) (hn : (h x).n = (h y).n) (hn' : (h x).n = (h z).n) :
    Ok (vectorPdiv x y z h) fun r => r.1 = .success ∧ Assigned h z (fun i => h.el x i / h.el y i) r.2 := by
  unfold vectorPdiv
  rw [if_neg (by simp [← hn, ← hn']), Ok_bind]
  refine Ok_elem (fun i => h.el x i / h.el y i) hn'.symm (by rw [hn']; exact hz) (fun i h' hi hI => ?_)
    (fun h' hA => ?_)
  · rw [vrd_eq hI hi hx, vrd_eq hI hi (by rw [hn]; exact hy)]; rfl
  · rw [Ok_pure]; exact ⟨rfl, hA⟩

theorem vectorScale_spec [Mul R] (al : R) (h : Vecs R) (x : ℕ) (hx : h.WF x) :
    Ok (vectorScale al x h) fun r => r.1 = .success ∧ Assigned h x (fun i => al * h.el x i) r.2 := by
  unfold vectorScale
  rw [Ok_bind]
  refine Ok_elem (fun i => al * h.el x i) rfl hx (fun i h' hi hI => ?_) (fun h' hA => ?_)
  · rw [vrd_eq hI hi hx]; rfl
  · rw [Ok_pure]; exact ⟨rfl, hA⟩

theorem vectorSetAll_spec (al : R) (h : Vecs R) (x : ℕ) (hx : h.WF x) :
    Ok (vectorSetAll al x h) fun r => r.1 = .success ∧ Assigned h x (fun _ => al) r.2 := by
  unfold vectorSetAll
  rw [Ok_bind]
  refine Ok_elem (fun _ => al) rfl hx (fun i h' hi hI => rfl) (fun h' hA => ?_)
  rw [Ok_pure]; exact ⟨rfl, hA⟩

theorem vectorAbs_spec (fabs : R → R) (h : Vecs R) (x : ℕ) (hx : h.WF x) :
    Ok (vectorAbs fabs x h) fun r => r.1 = .success ∧ Assigned h x (fun i => fabs (h.el x i)) r.2 := by
  unfold vectorAbs
  rw [Ok_bind]
  refine Ok_elem (fun i => fabs (h.el x i)) rfl hx (fun i h' hi hI => ?_) (fun h' hA => ?_)
  · rw [vrd_eq hI hi hx]; rfl
  · rw [Ok_pure]; exact ⟨rfl, hA⟩

theorem vectorReciprocal_spec [One R] [Div R] (h : Vecs R) (x : ℕ) (hx : h.WF x) :
    Ok (vectorReciprocal x h) fun r => r.1 = .success ∧ Assigned h x (fun i => 1 / h.el x i) r.2 := by
  unfold vectorReciprocal
  rw [Ok_bind]
  refine Ok_elem (fun i => 1 / h.el x i) rfl hx (fun i h' hi hI => ?_) (fun h' hA => ?_)
  · rw [vrd_eq hI hi hx]; rfl
  · rw [Ok_pure]; exact ⟨rfl, hA⟩

theorem vectorConjugate_spec [Star R] (h : Vecs R) (x : ℕ) (hx : h.WF x) :
    Ok (vectorConjugate x h) fun r => r.1 = .success ∧ Assigned h x (fun i => star (h.el x i)) r.2 := by
  unfold vectorConjugate
  rw [Ok_bind]
  refine Ok_elem (fun i => star (h.el x i)) rfl hx (fun i h' hi hI => ?_) (fun h' hA => ?_)
  · rw [vrd_eq hI hi hx]; rfl
  · rw [Ok_pure]; exact ⟨rfl, hA⟩

theorem vectorShift_spec [Sub R] (sigma : R) (h : Vecs R) (x : ℕ) (hx : h.WF x) :
    Ok (vectorShift sigma x h) fun r => r.1 = .success ∧ Assigned h x (fun i => h.el x i - sigma) r.2 := by
  unfold vectorShift
  rw [Ok_bind]
  refine Ok_elem (fun i => h.el x i - sigma) rfl hx (fun i h' hi hI => ?_) (fun h' hA => ?_)
  · rw [vrd_eq hI hi hx]; rfl
  · rw [Ok_pure]; exact ⟨rfl, hA⟩

/-- after a swap each vector holds the other's elements (also when `x` and `y` are the same vector) and no other
vector has changed -/
theorem vectorSwap_spec (h : Vecs R) (x y : ℕ) (hx : h.WF x) (hy : h.WF y) (hn : (h x).n = (h y).n) :
    Ok (vectorSwap x y h) fun r => r.1 = .success ∧
      (∀ w, w ≠ x → w ≠ y → r.2 w = h w) ∧ (∀ w, (r.2 w).n = (h w).n) ∧
      (∀ w, (r.2 w).value.size = (h w).value.size) ∧
      ∀ i, i < (h x).n → r.2.el x i = h.el y i ∧ r.2.el y i = h.el x i := by
  unfold vectorSwap
  rw [if_neg (by simp [hn]), Ok_bind]
  have hx' : (h x).n ≤ (h x).value.size := hx
  have hy' : (h x).n ≤ (h y).value.size := by rw [hn]; exact hy
  refine Ok_loop_le (fun i (h' : Vecs R) => (∀ w, w ≠ x → w ≠ y → h' w = h w) ∧ (∀ w, (h' w).n = (h w).n) ∧
      (∀ w, (h' w).value.size = (h w).value.size) ∧
      (∀ j, i ≤ j → (h' x).value.get j = (h x).value.get j ∧ (h' y).value.get j = (h y).value.get j) ∧
      ∀ j, j < i → h'.el x j = h.el y j ∧ h'.el y j = h.el x j) (Nat.zero_le _)
    ⟨fun _ _ _ => rfl, fun _ => rfl, fun _ => rfl, fun _ _ => ⟨rfl, rfl⟩, fun j hj => absurd hj (by omega)⟩ ?_ ?_
  · rintro i h' - hi ⟨h1, h2, h3, h4, h5⟩
    simp only [Ok_bind, Ok_vrd, Ok_vwr]
    have e1 := (h4 i (Nat.le_refl _)).1
    have e2 := (h4 i (Nat.le_refl _)).2
    refine ⟨by rw [h3]; omega, by rw [h3]; omega, by rw [h3]; omega, ?_, ?_, ?_, ?_, ?_, ?_⟩
    · by_cases hxy : x = y
      · subst hxy; simp; rw [h3]; omega
      · simp [hxy]; rw [h3]; omega
    · intro w a b; simp [a, b, h1 w a b]
    · intro w
      by_cases a : w = x <;> by_cases b : w = y <;> by_cases c : x = y <;> simp_all
    · intro w
      by_cases a : w = x <;> by_cases b : w = y <;> by_cases c : x = y <;> simp_all
    · intro j hj
      have hj' : j ≠ i := by omega
      have := h4 j (by omega)
      by_cases c : x = y
      · subst c; simp [Arr.set_get, hj', this.1]
      · have c' : y ≠ x := fun e => c e.symm
        simp [c, c', Arr.set_get, hj', this.1, this.2]
    · intro j hj
      by_cases c : x = y
      · subst c
        simp only [Vecs.el, if_true, Arr.set_get]
        by_cases hji : j = i
        · subst hji; simp [e1]
        · have := (h5 j (by omega)).1
          simp [hji]; exact this
      · have c' : y ≠ x := fun e => c e.symm
        simp only [Vecs.el, if_true, if_neg c, if_neg c', Arr.set_get]
        by_cases hji : j = i
        · subst hji; simp [e1, e2]
        · have := h5 j (by omega)
          simp [hji]; exact this
  · rintro h' ⟨h1, h2, h3, h4, h5⟩
    rw [Ok_pure]; exact ⟨rfl, h1, h2, h3, h5⟩

/-- a length mismatch is rejected and nothing is changed -/
theorem vector_length_mismatch [Add R] [Mul R] [Div R] [Zero R] [Star R] (al : R) (run : Option (OmpRun R))
    (h : Vecs R) (x y z : ℕ) :
    ((h x).n ≠ (h y).n → vectorSwap x y h = some (.illArg, h) ∧ vectorCopy x y h = some (.illArg, h) ∧
      vectorAxpy al x y h = some (.illArg, h) ∧ vectorXpay x al y h = some (.illArg, h) ∧
      vectorDot run x y h = some (.illArg, none) ∧ vectorNhdot run x y h = some (.illArg, none)) ∧
    ((h x).n ≠ (h y).n ∨ (h x).n ≠ (h z).n → vectorAxpyz al x y z h = some (.illArg, h) ∧
      vectorPmul x y z h = some (.illArg, h) ∧ vectorPdiv x y z h = some (.illArg, h)) := by
  refine ⟨fun hn => ?_, fun hn => ?_⟩
  · simp [vectorSwap, vectorCopy, vectorAxpy, vectorXpay, vectorDot, vectorNhdot, hn]
  · refine ⟨?_, ?_, ?_⟩
    · unfold vectorAxpyz; rw [if_pos hn]
    · unfold vectorPmul; rw [if_pos hn]
    · unfold vectorPdiv; rw [if_pos hn]

/-! ### reductions, serial or with any team size and schedule -/

theorem vectorDot_spec [NonUnitalNonAssocSemiring R] [Star R] (run : Option (OmpRun R)) (h : Vecs R) (x y : ℕ)
    (hx : h.WF x) (hy : h.WF y) (hn : (h x).n = (h y).n) (hr : GoodRun (h x).n run) :
    vectorDot run x y h = some (.success, some (∑ i ∈ range (h x).n, star (h.el x i) * h.el y i)) := by
  have hx' : (h x).n ≤ (h x).value.size := hx
  have hy' : (h x).n ≤ (h y).value.size := by rw [hn]; exact hy
  have : Ok (vectorDot run x y h) fun r =>
      r = (.success, some (∑ i ∈ range (h x).n, star (h.el x i) * h.el y i)) := by
    unfold vectorDot
    rw [if_neg (by simp [hn]), Ok_bind]
    refine Ok_reduce (fun i => star (h.el x i) * h.el y i) hr (fun i hi => ?_) (by rw [Ok_pure])
    rw [vrd, vrd, Arr.rd, Arr.rd, if_pos (by omega), if_pos (by omega)]; rfl
  obtain ⟨a, h1, h2⟩ := this
  rw [h1, h2]

theorem vectorNhdot_spec [NonUnitalNonAssocSemiring R] (run : Option (OmpRun R)) (h : Vecs R) (x y : ℕ)
    (hx : h.WF x) (hy : h.WF y) (hn : (h x).n = (h y).n) (hr : GoodRun (h x).n run) :
    vectorNhdot run x y h = some (.success, some (∑ i ∈ range (h x).n, h.el x i * h.el y i)) := by
  have hx' : (h x).n ≤ (h x).value.size := hx
  have hy' : (h x).n ≤ (h y).value.size := by rw [hn]; exact hy
  have : Ok (vectorNhdot run x y h) fun r =>
      r = (.success, some (∑ i ∈ range (h x).n, h.el x i * h.el y i)) := by
    unfold vectorNhdot
    rw [if_neg (by simp [hn]), Ok_bind]
    refine Ok_reduce (fun i => h.el x i * h.el y i) hr (fun i hi => ?_) (by rw [Ok_pure])
    rw [vrd, vrd, Arr.rd, Arr.rd, if_pos (by omega), if_pos (by omega)]; rfl
  obtain ⟨a, h1, h2⟩ := this
  rw [h1, h2]

theorem vectorNrm2_spec [NonUnitalNonAssocSemiring R] [Star R] (sqrt : R → S) (run : Option (OmpRun R)) (h : Vecs R)
    (x : ℕ) (hx : h.WF x) (hr : GoodRun (h x).n run) :
    vectorNrm2 sqrt run x h =
      some (.success, some (sqrt (∑ i ∈ range (h x).n, star (h.el x i) * h.el x i))) := by
  have hx' : (h x).n ≤ (h x).value.size := hx
  have : Ok (vectorNrm2 sqrt run x h) fun r =>
      r = (.success, some (sqrt (∑ i ∈ range (h x).n, star (h.el x i) * h.el x i))) := by
    unfold vectorNrm2
    rw [Ok_bind]
    refine Ok_reduce (fun i => star (h.el x i) * h.el x i) hr (fun i hi => ?_) (by rw [Ok_pure])
    rw [vrd, Arr.rd, if_pos (by omega)]; rfl
  obtain ⟨a, h1, h2⟩ := this
  rw [h1, h2]

theorem vectorNrm1_spec [AddCommMonoid S] (fabs : R → S) (run : Option (OmpRun S)) (h : Vecs R)
    (x : ℕ) (hx : h.WF x) (hr : GoodRun (h x).n run) :
    vectorNrm1 fabs run x h = some (.success, some (∑ i ∈ range (h x).n, fabs (h.el x i))) := by
  have hx' : (h x).n ≤ (h x).value.size := hx
  have : Ok (vectorNrm1 fabs run x h) fun r =>
      r = (.success, some (∑ i ∈ range (h x).n, fabs (h.el x i))) := by
    unfold vectorNrm1
    rw [Ok_bind]
    refine Ok_reduce (fun i => fabs (h.el x i)) hr (fun i hi => ?_) (by rw [Ok_pure])
    rw [vrd, Arr.rd, if_pos (by omega)]; rfl
  obtain ⟨a, h1, h2⟩ := this
  rw [h1, h2]

theorem vectorSum_spec [AddCommMonoid R] (run : Option (OmpRun R)) (h : Vecs R)
    (x : ℕ) (hx : h.WF x) (hr : GoodRun (h x).n run) :
    vectorSum run x h = some (.success, some (∑ i ∈ range (h x).n, h.el x i)) := by
  have hx' : (h x).n ≤ (h x).value.size := hx
  have : Ok (vectorSum run x h) fun r => r = (.success, some (∑ i ∈ range (h x).n, h.el x i)) := by
    unfold vectorSum
    rw [Ok_bind]
    refine Ok_reduce (fun i => h.el x i) hr (fun i hi => ?_) (by rw [Ok_pure])
    rw [vrd, Arr.rd, if_pos (by omega)]; rfl
  obtain ⟨a, h1, h2⟩ := this
  rw [h1, h2]

/-- the result of `lis_vector_nrmi` is the largest `|x_i|` (0 for an empty vector) -/
theorem vectorNrmi_spec [Zero S] [LinearOrder S] (fabs : R → S) (hpos : ∀ a, 0 ≤ fabs a) (h : Vecs R) (x : ℕ)
    (hx : h.WF x) :
    ∃ m, vectorNrmi fabs x h = some (.success, some m) ∧ (∀ i, i < (h x).n → fabs (h.el x i) ≤ m) ∧
      ((h x).n = 0 ∧ m = 0 ∨ ∃ i, i < (h x).n ∧ m = fabs (h.el x i)) := by
  have hx' : (h x).n ≤ (h x).value.size := hx
  have : Ok (vectorNrmi fabs x h) fun r => r.1 = .success ∧ ∃ m, r.2 = some m ∧
      (∀ i, i < (h x).n → fabs (h.el x i) ≤ m) ∧
      ((h x).n = 0 ∧ m = 0 ∨ ∃ i, i < (h x).n ∧ m = fabs (h.el x i)) := by
    unfold vectorNrmi
    rw [Ok_bind]
    refine Ok_loop_le (fun i m => 0 ≤ m ∧ (∀ j, j < i → fabs (h.el x j) ≤ m) ∧
      (m = 0 ∨ ∃ j, j < i ∧ m = fabs (h.el x j)) ∧ (0 < i → m = 0 → ∃ j, j < i ∧ m = fabs (h.el x j)))
      (Nat.zero_le _) ⟨le_refl _, fun j hj => absurd hj (by omega), Or.inl rfl, fun h => absurd h (by omega)⟩ ?_ ?_
    · rintro i m - hi ⟨h0, h1, h2, h3⟩
      simp only [Ok_bind, Ok_vrd, Ok_ite, Ok_pure]
      refine ⟨by omega, fun hgt => ⟨hpos _, ?_, Or.inr ⟨i, by omega, rfl⟩, fun _ _ => ⟨i, by omega, rfl⟩⟩,
        fun hle => ⟨h0, ?_, ?_, ?_⟩⟩
      · intro j hj
        rcases Nat.lt_succ_iff_lt_or_eq.1 hj with hj | rfl
        · exact le_of_lt (lt_of_le_of_lt (h1 j hj) hgt)
        · exact le_refl _
      · intro j hj
        rcases Nat.lt_succ_iff_lt_or_eq.1 hj with hj | rfl
        · exact h1 j hj
        · exact not_lt.1 hle
      · rcases h2 with h2 | ⟨j, hj, e⟩
        · exact Or.inl h2
        · exact Or.inr ⟨j, by omega, e⟩
      · intro _ hm
        refine ⟨i, by omega, le_antisymm ?_ (not_lt.1 hle)⟩
        rw [hm]; exact hpos _
    · rintro m ⟨h0, h1, h2, h3⟩
      rw [Ok_pure]
      refine ⟨rfl, m, rfl, h1, ?_⟩
      rcases Nat.eq_zero_or_pos (h x).n with hn | hn
      · rcases h2 with h2 | ⟨j, hj, _⟩
        · exact Or.inl ⟨hn, h2⟩
        · omega
      · rcases h2 with h2 | h2
        · exact Or.inr (h3 hn h2)
        · exact Or.inr h2
  obtain ⟨⟨e, v⟩, h1, h2, m, h3, h4, h5⟩ := this
  simp only at h2 h3
  subst h2 h3
  exact ⟨m, h1, h4, h5⟩

/-- MPI: if on rank `r` the local vector holds the rows `[is r, ie r)` of the block distribution of a global
vector with `N` elements, the Allreduce of the local sums is the sum over the whole vector. -/
theorem vectorSum_mpi [AddCommMonoid R] (post : R → S) (N p : ℕ) (hp : 0 < p) (g : ℕ → R)
    (loc : ℕ → Option R)
    (hl : ∀ r, r < p → loc r =
      some (∑ i ∈ range ((getIsIe r p N).2 - (getIsIe r p N).1), g ((getIsIe r p N).1 + i))) :
    allreduceSum post p loc = some (post (∑ i ∈ range N, g i)) := by
  have : Ok (allreduceSum post p loc) fun r => r = post (∑ i ∈ range N, g i) := by
    unfold allreduceSum
    rw [Ok_bind]
    refine Ok_loop_le (fun r s => s = ∑ i ∈ range (if r < p then (getIsIe r p N).1 else N), g i) (Nat.zero_le _)
      ?_ ?_ ?_
    · rw [if_pos hp, (getIsIe_contiguous p N hp).1]; simp
    · rintro r s - hr rfl
      rw [hl r hr, Ok_bind, Ok_some, Ok_pure, if_pos hr]
      have hle := (getIsIe_balanced r p N).1
      have hnext : (if r + 1 < p then (getIsIe (r + 1) p N).1 else N) = (getIsIe r p N).2 := by
        split
        · next h => exact ((getIsIe_contiguous p N hp).2.1 r).symm
        · next h => rw [show r = p - 1 by omega]; exact ((getIsIe_contiguous p N hp).2.2).symm
      rw [hnext, ← Finset.sum_range_add_sum_Ico _ hle, Finset.sum_Ico_eq_sum_range]
    · intro s hs
      rw [Ok_pure, hs, if_neg (by omega)]
  obtain ⟨a, h1, h2⟩ := this
  rw [h1, h2]


/-! ### what goes wrong with threads -/

/-- When the team has fewer threads than `omp_get_max_threads()` (a call from inside a parallel region, or a thread
limit), the cells of the missing threads still hold what an earlier reduction left there, and are added. -/
theorem vectorSum_small_team :
    ∃ (r : OmpRun ℤ) (h : Vecs ℤ), h.WF 0 ∧ r.team = 1 ∧ r.nprocs = 2 ∧ Schedule (h 0).n r.team r.sched ∧
      r.nprocs * vecTmpPadd ≤ r.tmp.size ∧
      ∃ s, vectorSum (some r) 0 h = some (.success, some s) ∧ s ≠ ∑ i ∈ range (h 0).n, h.el 0 i :=
  ⟨⟨2, 1, fun _ => [0, 1], ⟨256, fun _ => 7⟩⟩, fun _ => ⟨2, Arr.ofList [1, 2]⟩, by decide, rfl, rfl,
    by unfold Schedule; exact List.Perm.refl _, by decide, 10, rfl, by decide⟩

/-- one thread of `lis_vector_nrmi`: the largest of the initial value of `tmp` and its elements -/
theorem nrmi_thread [LinearOrder S] (fabs : R → S) (h : Vecs R) (x : ℕ) (its : List ℕ)
    (hi : ∀ i ∈ its, i < (h x).value.size) (a : S) :
    Ok (its.foldlM (fun s i => do
      let a ← vrd h x i
      if fabs a > s then pure (fabs a) else pure s) a)
      fun m => a ≤ m ∧ (∀ i ∈ its, fabs (h.el x i) ≤ m) ∧ (m = a ∨ ∃ i ∈ its, m = fabs (h.el x i)) := by
  induction its generalizing a with
  | nil => simp [List.foldlM_nil]
  | cons i its ih =>
    rw [List.foldlM_cons, Ok_bind, Ok_bind, Ok_vrd]
    refine ⟨hi i (by simp), ?_⟩
    rw [Ok_ite]
    refine ⟨fun hc => ?_, fun hc => ?_⟩
    · rw [Ok_pure]
      refine (ih (fun j hj => hi j (by simp [hj])) _).mono ?_
      rintro m ⟨h1, h2, h3⟩
      refine ⟨le_trans (le_of_lt hc) h1, ?_, ?_⟩
      · intro j hj
        rcases List.mem_cons.1 hj with rfl | hj
        · exact h1
        · exact h2 j hj
      · rcases h3 with h3 | ⟨j, hj, e⟩
        · exact Or.inr ⟨i, by simp, h3⟩
        · exact Or.inr ⟨j, by simp [hj], e⟩
    · rw [Ok_pure]
      refine (ih (fun j hj => hi j (by simp [hj])) _).mono ?_
      rintro m ⟨h1, h2, h3⟩
      refine ⟨h1, ?_, ?_⟩
      · intro j hj
        rcases List.mem_cons.1 hj with rfl | hj
        · exact le_trans (not_lt.1 hc) h1
        · exact h2 j hj
      · rcases h3 with h3 | ⟨j, hj, e⟩
        · exact Or.inl h3
        · exact Or.inr ⟨j, by simp [hj], e⟩

/-- the OpenMP `lis_vector_nrmi` returns the largest `|x_i|` if the uninitialised private `tmp`s happen not to
exceed it … -/
theorem vectorNrmiOmp_spec [Zero S] [LinearOrder S] (fabs : R → S) (r : OmpRun S) (junk : ℕ → S)
    (h : Vecs R) (x : ℕ) (hx : h.WF x) (hr : GoodRun (h x).n (some r)) (hj : ∀ t, junk t ≤ 0) :
    ∃ m, vectorNrmiOmp fabs r junk x h = some (.success, some m) ∧ 0 ≤ m ∧
      (∀ i, i < (h x).n → fabs (h.el x i) ≤ m) ∧ (m = 0 ∨ ∃ i, i < (h x).n ∧ m = fabs (h.el x i)) := by
  obtain ⟨e1, e2, e3⟩ := hr
  have hx' : (h x).n ≤ (h x).value.size := hx
  have hmem : ∀ t, t < r.team → ∀ i ∈ r.sched t, i < (h x).n := by
    intro t ht i hi
    have : i ∈ (List.range r.team).flatMap r.sched := List.mem_flatMap.2 ⟨t, by simpa using ht, hi⟩
    simpa using e2.mem_iff.1 this
  have hcov : ∀ i, i < (h x).n → ∃ t, t < r.team ∧ i ∈ r.sched t := by
    intro i hi
    have : i ∈ (List.range r.team).flatMap r.sched := e2.mem_iff.2 (by simpa using hi)
    simpa [List.mem_flatMap] using this
  have hpad : ∀ t, t < r.team → t * vecTmpPadd < r.team * vecTmpPadd :=
    fun t h => Nat.mul_lt_mul_of_pos_right h (by decide)
  have : Ok (vectorNrmiOmp fabs r junk x h) fun q => q.1 = .success ∧ ∃ m, q.2 = some m ∧ 0 ≤ m ∧
      (∀ i, i < (h x).n → fabs (h.el x i) ≤ m) ∧ (m = 0 ∨ ∃ i, i < (h x).n ∧ m = fabs (h.el x i)) := by
    unfold vectorNrmiOmp
    rw [Ok_bind]
    refine Ok_loop_le (fun t (w : Arr S) => w.size = r.tmp.size ∧ ∀ s, s < t →
      (∀ i ∈ r.sched s, fabs (h.el x i) ≤ w.get (s * vecTmpPadd)) ∧
      (w.get (s * vecTmpPadd) = junk s ∨ ∃ i ∈ r.sched s, w.get (s * vecTmpPadd) = fabs (h.el x i)))
      (Nat.zero_le _) ⟨rfl, fun s hs => absurd hs (by omega)⟩ ?_ ?_
    · rintro t w - ht ⟨hsz, hg⟩
      rw [Ok_bind]
      refine (nrmi_thread fabs h x (r.sched t) (fun i hi => by have := hmem t ht i hi; omega) (junk t)).mono ?_
      rintro m ⟨-, h2, h3⟩
      rw [Ok_wr]
      refine ⟨by have := hpad t ht; rw [e1] at this; omega, hsz, ?_⟩
      intro s hs
      rw [Arr.set_get]
      by_cases hst : s = t
      · subst hst; rw [if_pos rfl]; exact ⟨h2, h3⟩
      · rw [if_neg (fun e => hst ((Nat.mul_right_cancel_iff (m := vecTmpPadd) (by decide)).1 e))]
        exact hg s (by omega)
    · rintro w ⟨hsz, hg⟩
      rw [Ok_bind]
      refine Ok_loop_le (fun t m => 0 ≤ m ∧ (∀ s, s < t → ∀ i ∈ r.sched s, fabs (h.el x i) ≤ m) ∧
        (m = 0 ∨ ∃ i, i < (h x).n ∧ m = fabs (h.el x i))) (Nat.zero_le _)
        ⟨le_refl _, fun s hs => absurd hs (by omega), Or.inl rfl⟩ ?_ ?_
      · rintro t m - ht ⟨h0, h1, h2⟩
        rw [← e1] at ht
        simp only [Ok_bind, Ok_rd, Ok_ite, Ok_pure]
        have hp := hpad t ht
        rw [e1] at hp
        have hcase : ∀ s, s < t + 1 → s < t ∨ s = t := fun s hs => by omega
        refine ⟨by omega, fun hc => ⟨le_trans h0 (le_of_lt hc), ?_, ?_⟩, fun hc => ⟨h0, ?_, h2⟩⟩
        · intro s hs i hi
          rcases hcase s hs with hs | rfl
          · exact le_trans (h1 s hs i hi) (le_of_lt hc)
          · exact (hg s ht).1 i hi
        · rcases (hg t ht).2 with e | ⟨i, hi, e⟩
          · exact absurd (lt_of_lt_of_le hc (e ▸ hj t)) (not_lt.2 h0)
          · exact Or.inr ⟨i, hmem t ht i hi, e⟩
        · intro s hs i hi
          rcases hcase s hs with hs | rfl
          · exact h1 s hs i hi
          · exact le_trans ((hg s ht).1 i hi) (not_lt.1 hc)
      · rintro m ⟨h0, h1, h2⟩
        rw [Ok_pure]
        refine ⟨rfl, m, rfl, h0, ?_, h2⟩
        intro i hi
        obtain ⟨t, ht, hti⟩ := hcov i hi
        exact h1 t (by omega) i hti
  obtain ⟨⟨e, v⟩, h1, h2, m, h3, h4, h5, h6⟩ := this
  simp only at h2 h3
  subst h2 h3
  exact ⟨m, h1, h4, h5, h6⟩

/-- … and otherwise returns the leftover value instead. -/
theorem vectorNrmiOmp_uninitialised :
    ∃ (r : OmpRun ℤ) (junk : ℕ → ℤ) (h : Vecs ℤ), h.WF 0 ∧ GoodRun (h 0).n (some r) ∧
      (∀ i, i < (h 0).n → |h.el 0 i| ≤ 2) ∧ vectorNrmiOmp (fun a => |a|) r junk 0 h = some (.success, some 9) :=
  ⟨⟨1, 1, fun _ => [0, 1], ⟨128, fun _ => 0⟩⟩, fun _ => 9, fun _ => ⟨2, Arr.ofList [1, -2]⟩, by decide,
    ⟨rfl, by unfold Schedule; exact List.Perm.refl _, by decide⟩, by decide, rfl⟩

/-! ### non-vacuity -/

/-- three vectors of length 3, handles 0,1,2 -/
def exVecs : Vecs ℤ := fun v =>
  if v = 0 then ⟨3, Arr.ofList [1, 2, 3]⟩ else if v = 1 then ⟨3, Arr.ofList [10, 20, 30]⟩ else ⟨3, Arr.ofList [0, 0, 0, 5]⟩

example : (vectorAxpy 2 0 1 exVecs).map (fun r => (r.1, (r.2 1).value.toList)) = some (.success, [12, 24, 36]) := by decide
example : (vectorAxpy 2 1 1 exVecs).map (fun r => (r.1, (r.2 1).value.toList)) = some (.success, [30, 60, 90]) := by decide
example : (vectorAxpyz 2 0 1 2 exVecs).map (fun r => (r.1, (r.2 2).value.toList)) = some (.success, [12, 24, 36, 5]) := by decide
example : (vectorSwap 0 1 exVecs).map (fun r => ((r.2 0).value.toList, (r.2 1).value.toList)) =
    some ([10, 20, 30], [1, 2, 3]) := by decide
example : vectorNhdot none 0 1 exVecs = some (.success, some 140) := by decide
/-- two threads, iterations dealt 0,2 / 1 -/
example : GoodRun 3 (some (⟨2, 2, fun t => if t = 0 then [0, 2] else [1], ⟨256, fun _ => (7 : ℤ)⟩⟩ : OmpRun ℤ)) :=
  ⟨rfl, by unfold Schedule; decide, by decide⟩
example : exVecs.WF 0 ∧ exVecs.WF 1 ∧ (exVecs 0).n = (exVecs 1).n := by decide

end Lis
