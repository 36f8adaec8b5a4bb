import Verif.Lemmas.PreconIs3
import Verif.Spec.PreconIs
import Verif.Spec.Mul
import Verif.Props.Precon
import Mathlib.Tactic.LinearCombination
import Mathlib.Algebra.Star.Basic
import Mathlib.Data.Rat.Star

/-!
# C50: the I+S preconditioner
-/

namespace Lis
open Finset
variable {R : Type}

theorem Csr.WF.take_row {U : Csr R} (hU : U.WF) (m : ℕ) {i : ℕ} (hi : i < U.n) :
    min (U.ptr.get i + m) (U.ptr.get (i + 1)) = U.ptr.get i + ((U.rowList i).take m).length := by
  have := hU.row_end hi
  rw [List.length_take]
  omega

theorem take_get (U : Csr R) (m i : ℕ) {q : ℕ} (hq : q < ((U.rowList i).take m).length) :
    ((U.rowList i).take m)[q] = (U.index.get (U.ptr.get i + q), U.value.get (U.ptr.get i + q)) := by
  rw [List.getElem_take, Csr.rowList_get]

theorem firstM_list [AddCommMonoid R] {U : Csr R} (hU : U.WF) (m : ℕ) {i : ℕ} (hi : i < U.n) (j : ℕ) :
    U.firstM m i j = ksum ((U.rowList i).take m) j := by
  unfold Csr.firstM ksum
  rw [hU.take_row m hi]
  refine sum_Ico_list _ _ _ _ _ rfl fun q hq => ?_
  rw [take_get]

/-- a sum over a list of (column, value), by columns -/
theorem ksum_by_col [Semiring R] {n : ℕ} {l : List (ℕ × R)} (hl : ∀ e ∈ l, e.1 < n) (f : ℕ → R) :
    (l.map fun e => e.2 * f e.1).sum = ∑ k ∈ range n, ksum l k * f k := by
  induction l with
  | nil => simp [ksum]
  | cons e l ih =>
    rw [List.map_cons, List.sum_cons, ih fun x hx => hl x (by simp [hx])]
    have : ∀ k, ksum (e :: l) k * f k = (if e.1 = k then e.2 * f k else 0) + ksum l k * f k := by
      intro k
      unfold ksum
      rw [List.map_cons, List.sum_cons, add_mul]
      split <;> simp
    simp only [this]
    rw [sum_add_distrib, sum_ite_eq, if_pos (mem_range.2 (hl e (by simp)))]

section apply
variable [CommRing R]

theorem sum_delta {n i : ℕ} (hi : i < n) (g : ℕ → R) :
    ∑ j ∈ range n, (if i = j then (1 : R) else 0) * g j = g i := by
  simp only [ite_mul, one_mul, zero_mul]
  rw [sum_ite_eq, if_pos (mem_range.2 hi)]

/-- `Σ_j (I - wS)_ij g_j` in terms of the stored elements -/
theorem isMat_row {U : Csr R} (hU : U.WF) (w : R) (m : ℕ) {i : ℕ} (hi : i < U.n) (hsq : U.np = U.n) (g : ℕ → R) :
    ∑ j ∈ range U.n, isMat U w m i j * g j = g i - w * (((U.rowList i).take m).map fun e => e.2 * g e.1).sum := by
  have hcol : ∀ e ∈ (U.rowList i).take m, e.1 < U.n := fun e he => by
    have := hU.rowList_col hi (List.mem_of_mem_take he); omega
  rw [ksum_by_col hcol, mul_sum]
  simp only [isMat, sub_mul]
  rw [sum_sub_distrib, sum_delta hi]
  congr 1
  refine sum_congr rfl fun k _ => ?_
  rw [firstM_list hU m hi]; ring

/-- **C50 (application).** `lis_psolve` with the I+S preconditioner returns `y = (I - w S) x`, where `S` holds the first
`m` stored elements of every row of the strictly upper triangle. -/
theorem psolveIs_spec {U : Csr R} (hU : U.WF) (hsq : U.np = U.n) (w : R) (m : ℕ) {x y : Arr R} (hx : U.n ≤ x.size)
    (hy : U.n ≤ y.size) :
    Ok (psolveIs U w m U.n x y) fun y' => y'.size = y.size ∧
      IsMul U.n U.n (isMat U w m) x.get y'.get ∧ SameFrom U.n y.get y'.get := by
  have hps := hU.ptr.size
  have his := hU.isz
  have hvs := hU.vsz
  unfold psolveIs
  refine Ok_loop_fill (fun i => x.get i - w * (((U.rowList i).take m).map fun e => e.2 * x.get e.1).sum) ?_ ?_
  · intro i y' _ hi hs _ _
    simp only [Ok_bind, Ok_rd]
    refine ⟨by omega, (isRowEnd_spec hU m hi).mono ?_⟩
    rintro e rfl
    refine Ok_takeLoop (l := (U.rowList i).take m) (fun l t => t = (l.map fun e => e.2 * x.get e.1).sum) rfl rfl ?_ ?_
    · rintro q hq t rfl
      have hq' := hq
      rw [List.length_take] at hq'
      have hk : U.ptr.get i + q < U.nnz := hU.ptr.lt_nnz hi (by rw [hU.row_end hi]; omega)
      have hc := hU.idx _ hk
      simp only [Ok_bind, Ok_rd]
      rw [Ok_pure, take_get, List.map_append, List.sum_append]
      refine ⟨by omega, by omega, by omega, ?_⟩
      simp
    · rintro t rfl
      simp only [Ok_wr]
      exact ⟨by omega, by omega, trivial⟩
  · intro y' hs h1 h2
    refine ⟨hs, fun i hi => ?_, fun i hi => h2 i (by omega)⟩
    rw [isMat_row hU w m hi hsq, h1 i (by omega) hi]

/-- `I - wS` is unit upper triangular, so the preconditioner can be undone: different vectors have different images. -/
theorem isMat_injective {U : Csr R} (hU : U.WF) (hsq : U.np = U.n)
    (hs : ∀ i, i < U.n → ∀ k, U.ptr.get i ≤ k → k < U.ptr.get (i + 1) → i < U.index.get k) (w : R) (m : ℕ)
    {x x' y : ℕ → R} (h : IsMul U.n U.n (isMat U w m) x y) (h' : IsMul U.n U.n (isMat U w m) x' y) :
    ∀ i, i < U.n → x i = x' i := by
  have key : ∀ d i, i < U.n → U.n - i ≤ d → x i = x' i := by
    intro d
    induction d with
    | zero => intro i hi hd; omega
    | succ d ih =>
      intro i hi hd
      have e := (h i hi).symm.trans (h' i hi)
      rw [isMat_row hU w m hi hsq, isMat_row hU w m hi hsq] at e
      have : ((U.rowList i).take m).map (fun e => e.2 * x e.1) = ((U.rowList i).take m).map (fun e => e.2 * x' e.1) := by
        refine List.map_congr_left fun e he => ?_
        have hm := List.mem_of_mem_take he
        have h1 := hU.rowList_col hi hm
        obtain ⟨k, k1, k2, rfl⟩ := Csr.mem_rowList.1 hm
        have h2 := hs i hi k k1 k2
        simp only at h1 ⊢
        rw [ih _ (by omega) (by omega)]
      rw [this] at e
      exact sub_left_injective e
  exact fun i hi => key _ i hi le_rfl

/-- **C50 (conjugate transpose).** `lis_psolveh` returns `y = (I - w S)ᴴ x` (`w` real, as `-is_alpha` always is). -/
theorem psolvehIs_spec [StarRing R] {U : Csr R} (hU : U.WF) (hsq : U.np = U.n) {w : R} (hw : star w = w) (m : ℕ)
    {x y : Arr R} (hx : U.n ≤ x.size) (hy : U.n ≤ y.size) :
    Ok (psolvehIs U w m U.n U.n x y) fun y' => y'.size = y.size ∧
      IsMulH U.n U.n (isMat U w m) x.get y'.get ∧ SameFrom U.n y.get y'.get := by
  have hps := hU.ptr.size
  have his := hU.isz
  have hvs := hU.vsz
  unfold psolvehIs
  simp only [Ok_bind]
  refine (copyArr_spec hx hy).mono ?_
  rintro y0 ⟨s0, g0, f0⟩
  refine Ok_loop_le (fun i (y' : Arr R) => y'.size = y.size ∧ SameFrom U.n y.get y'.get ∧
    ∀ j, j < U.n → y'.get j = x.get j - ∑ r ∈ range i, w * star (U.firstM m r j) * x.get r) (Nat.zero_le _) ?_ ?_ ?_
  · exact ⟨s0, f0, fun j hj => by rw [g0 j hj]; simp⟩
  · rintro i y' - hi ⟨a1, a2, a3⟩
    simp only [Ok_bind, Ok_rd]
    refine ⟨by omega, by omega, (isRowEnd_spec hU m hi).mono ?_⟩
    rintro e rfl
    refine Ok_takeLoop (l := (U.rowList i).take m) (fun l (y'' : Arr R) => y''.size = y.size ∧
      SameFrom U.n y.get y''.get ∧ ∀ j, j < U.n → y''.get j = y'.get j - w * star (ksum l j) * x.get i) rfl ?_ ?_ ?_
    · exact ⟨a1, a2, fun j _ => by simp [ksum]⟩
    · rintro q hq y'' ⟨b1, b2, b3⟩
      have hq' := hq
      rw [List.length_take] at hq'
      have hk : U.ptr.get i + q < U.nnz := hU.ptr.lt_nnz hi (by rw [hU.row_end hi]; omega)
      have hc := hU.idx _ hk
      simp only [Ok_bind, Ok_rd, Ok_wr]
      rw [take_get]
      refine ⟨by omega, by omega, by omega, by omega, b1, fun j hj => ?_, fun j hj => ?_⟩
      · rw [Arr.set_get, if_neg (by omega)]; exact b2 j hj
      · rw [ksum_snoc, Arr.set_get]
        by_cases e : j = U.index.get (U.ptr.get i + q)
        · subst e
          rw [if_pos rfl, if_pos rfl, b3 _ hj, star_add]; ring
        · rw [if_neg e, if_neg fun hh => e hh.symm, add_zero, b3 j hj]
    · rintro y'' ⟨b1, b2, b3⟩
      refine ⟨b1, b2, fun j hj => ?_⟩
      rw [b3 j hj, a3 j hj, sum_range_succ, firstM_list hU m hi]; ring
  · rintro y' ⟨a1, a2, a3⟩
    refine ⟨a1, fun j hj => ?_, a2⟩
    rw [a3 j hj]
    have : ∀ r, star (isMat U w m r j) * x.get r =
        (if j = r then (1 : R) else 0) * x.get r - w * star (U.firstM m r j) * x.get r := by
      intro r
      unfold isMat
      rw [star_sub, star_mul, hw, sub_mul]
      congr 1
      · by_cases e : j = r
        · simp [e]
        · rw [if_neg e, if_neg fun hh => e hh.symm]; simp
      · ring
    simp only [this]
    rw [sum_sub_distrib, sum_delta hj]

end apply

/-! ### the preconditioned matrix for the stationary solvers -/

section build
variable [CommRing R]

theorem rowAcc_ksum (p : ℕ → Bool) (S : List (ℕ × R)) (j : ℕ) : ksum (rowAcc p S) j = if p j = true then ksum S j else 0 := by
  unfold rowAcc
  rw [ksum_keys (keysP p S) (nodup_keysOf _)]
  by_cases hm : j ∈ S.map Prod.fst
  · by_cases hp : p j = true
    · rw [if_pos (keysP_mem.2 ⟨hm, hp⟩), if_pos hp]
    · rw [if_neg fun hh => hp (keysP_mem.1 hh).2, if_neg hp]
  · rw [if_neg fun hh => hm (keysP_mem.1 hh).1]
    split
    · rw [ksum_absent hm]
    · rfl

theorem ksum_scL (a : R) (l : List (ℕ × R)) (j : ℕ) : ksum (scL a l) j = a * ksum l j := by
  induction l with
  | nil => simp [ksum, scL]
  | cons e l ih =>
    unfold ksum scL at ih ⊢
    rw [List.map_cons, List.map_cons, List.sum_cons, ih, List.map_cons, List.sum_cons, mul_add]
    split <;> simp

theorem Csr.entry_ksum (A : Csr R) (i j : ℕ) : A.entry i j = ksum (A.rowList i) j := A.entry_rowList i j

theorem ksum_flatMap {α : Type} (l : List α) (g : α → List (ℕ × R)) (j : ℕ) :
    ksum (l.flatMap g) j = (l.map fun e => ksum (g e) j).sum := by
  induction l with
  | nil => rfl
  | cons e l ih => rw [List.flatMap_cons, ksum_append, ih, List.map_cons, List.sum_cons]

theorem ksum_isSeq {A : SplitCsr R} (w : R) (m i j : ℕ) :
    ksum (isSeq A w m i) j = A.D.get i * (A.L.entry i j + A.U.entry i j) -
      w * (((A.U.rowList i).take m).map fun e => e.2 * A.entry e.1 j).sum := by
  unfold isSeq
  rw [ksum_append, ksum_append, ksum_scL, ksum_scL, ksum_flatMap, ← Csr.entry_ksum, ← Csr.entry_ksum]
  have h1 : ∀ e : ℕ × R, ksum (isPart A (-w * e.2) e.1) j = -w * (e.2 * A.entry e.1 j) := by
    intro e
    unfold isPart
    rw [ksum_append, ksum_append, ksum_scL, ksum_scL, ← Csr.entry_ksum, ← Csr.entry_ksum]
    unfold SplitCsr.entry ksum
    simp only [List.map_cons, List.map_nil, List.sum_cons, List.sum_nil, add_zero]
    split <;> ring
  simp only [h1]
  rw [List.sum_map_mul_left]
  ring

theorem Strict.low_zero {A : SplitCsr R} (h : A.Strict) {i j : ℕ} (hi : i < A.n) (hij : i ≤ j) : A.L.entry i j = 0 :=
  Csr.entry_absent fun k h1 h2 hh => by have := h.low i hi k h1 h2; omega

theorem Strict.up_zero {A : SplitCsr R} (h : A.Strict) {i j : ℕ} (hi : i < A.n) (hij : j ≤ i) : A.U.entry i j = 0 :=
  Csr.entry_absent fun k h1 h2 hh => by have := h.up i hi k h1 h2; omega

/-- **C50 (construction, as coded).** For every split matrix with strictly triangular duplicate-free parts and any
contents of fresh memory, `lis_precon_create_is_csr` stays inside its arrays and returns the matrix with diagonal
`D_i - w (S A)_ii` and off-diagonal entries `D_i A_ij - w (S A)_ij`, and the right-hand side `D_i b_i - w (S b)_i`. -/
theorem createIsCsr_entries (junk junk' : ℕ → ℕ → ℕ) (vjunk : ℕ → ℕ → R) (vjunk' : ℕ → R) {A : SplitCsr R} (h : A.Ready)
    (w : R) (m : ℕ) {b : Arr R} (hb : A.n ≤ b.size) :
    Ok (createIsCsr junk junk' vjunk vjunk' A w m (some b)) fun r => r.1.WF ∧ r.1.n = A.n ∧ r.1.np = A.n ∧
      r.2.size = A.n ∧
      (∀ i j, i < A.n → r.1.entry i j = (if i = j then A.D.get i else A.D.get i * A.entry i j) -
        w * ∑ k ∈ range A.n, A.U.firstM m i k * A.entry k j) ∧
      ∀ i, i < A.n → r.2.get i = A.D.get i * b.get i - w * ∑ k ∈ range A.n, A.U.firstM m i k * b.get k := by
  have hUn := h.wf.un
  have hU := h.wf.uwf
  have hsum : ∀ i, i < A.n → ∀ f : ℕ → R, (((A.U.rowList i).take m).map fun e => e.2 * f e.1).sum =
      ∑ k ∈ range A.n, A.U.firstM m i k * f k := by
    intro i hi f
    rw [ksum_by_col (n := A.n)]
    · exact sum_congr rfl fun k _ => by rw [firstM_list hU m (by omega)]
    · intro e he
      exact (h.up hi (List.mem_map_of_mem (List.mem_of_mem_take he))).2
  unfold createIsCsr
  rw [Ok_bind, Ok_some]
  rw [Ok_bind]
  refine (isBuild_spec junk vjunk h w m hb).mono ?_
  rintro ⟨P, pb⟩ ⟨p1, p2, p3, p4, p5, p6, p7, pL, pU, pD, q1, q2⟩
  simp only at p1 p2 p3 p4 p5 p6 p7 pL pU pD q1 q2
  have hbnd : ∀ i, i < A.n → ∀ (p : ℕ → Bool), ∀ e ∈ rowAcc p (isSeq A w m i), e.1 < A.n := by
    intro i hi p e he
    unfold rowAcc at he
    rw [List.mem_map] at he
    obtain ⟨c, hc, rfl⟩ := he
    exact isSeq_bound h w m hi c (keysP_mem.1 hc).1
  have hP : P.WF := ⟨by omega, by omega, by omega, by omega, by omega, by omega,
    pL.wf fun i hi e he => by rw [p4]; exact hbnd i (by omega) _ e he,
    pU.wf fun i hi e he => by rw [p6]; exact hbnd i (by omega) _ e he⟩
  rw [Ok_bind]
  refine (mergeCsr_spec junk' vjunk' hP).mono ?_
  rintro C ⟨c1, c2, c3, -, -, c6⟩
  rw [Ok_pure]
  refine ⟨c1, by simp only; omega, by simp only; omega, q1, fun i j hi => ?_, fun i hi => ?_⟩
  · simp only
    rw [c6 i j (by omega), ← hsum i hi fun k => A.entry k j]
    have hl : P.L.entry i j = ksum (isRowL A w m i) j := pL.entry (by omega) j
    have hu : P.U.entry i j = ksum (isRowU A w m i) j := pU.entry (by omega) j
    rw [show P.entry i j = (if i = j then P.D.get i else 0) + P.L.entry i j + P.U.entry i j from rfl, hl, hu, isRowL, isRowU, rowAcc_ksum, rowAcc_ksum, ksum_isSeq]
    simp only [decide_eq_true_eq]
    rcases Nat.lt_trichotomy i j with hij | hij | hij
    · rw [if_neg (by omega), if_neg (by omega), if_pos hij, if_neg (by omega),
        show A.entry i j = (if i = j then A.D.get i else 0) + A.L.entry i j + A.U.entry i j from rfl, if_neg (by omega)]
      ring
    · subst hij
      simp only [if_true, lt_irrefl, if_false]
      rw [pD i hi, ksum_isSeq,
        Strict.low_zero h.strict hi le_rfl, Strict.up_zero h.strict hi le_rfl]
      ring
    · rw [if_neg (by omega), if_pos hij, if_neg (by omega), if_neg (by omega),
        show A.entry i j = (if i = j then A.D.get i else 0) + A.L.entry i j + A.U.entry i j from rfl, if_neg (by omega)]
      ring
  · simp only
    rw [q2 i hi, ← hsum i hi b.get]
    have : (((A.U.rowList i).take m).map fun e => -w * e.2 * b.get e.1) =
        ((A.U.rowList i).take m).map fun e => -w * (e.2 * b.get e.1) :=
      List.map_congr_left fun e _ => by ring
    rw [this, List.sum_map_mul_left]
    ring

/-- **C50 (construction).** When the diagonal is one (the matrix has been scaled), the new matrix is `(I - wS) A`, the new
right-hand side `(I - wS) b`, and both systems have the same solutions. -/
theorem createIsCsr_spec (junk junk' : ℕ → ℕ → ℕ) (vjunk : ℕ → ℕ → R) (vjunk' : ℕ → R) {A : SplitCsr R} (h : A.Ready)
    (hD : ∀ i, i < A.n → A.D.get i = 1) (w : R) (m : ℕ) {b : Arr R} (hb : A.n ≤ b.size) :
    Ok (createIsCsr junk junk' vjunk vjunk' A w m (some b)) fun r => r.1.WF ∧ r.1.n = A.n ∧ r.1.np = A.n ∧
      (∀ i j, i < A.n → r.1.entry i j = ∑ k ∈ range A.n, isMat A.U w m i k * A.entry k j) ∧
      IsMul A.n A.n (isMat A.U w m) b.get r.2.get ∧
      ∀ x : ℕ → R, IsMul A.n A.n r.1.entry x r.2.get ↔ IsMul A.n A.n A.entry x b.get := by
  have hUn := h.wf.un
  have hU := h.wf.uwf
  have hUnp := h.wf.unp
  have hsq := h.sq
  have hrow : ∀ i, i < A.n → ∀ g : ℕ → R, ∑ k ∈ range A.n, isMat A.U w m i k * g k =
      g i - w * ∑ k ∈ range A.n, A.U.firstM m i k * g k := by
    intro i hi g
    simp only [isMat, sub_mul]
    rw [sum_sub_distrib, sum_delta hi, mul_sum]
    congr 1
    exact sum_congr rfl fun k _ => by ring
  refine (createIsCsr_entries junk junk' vjunk vjunk' h w m hb).mono ?_
  rintro ⟨C, pb⟩ ⟨c1, c2, c3, c4, c5, c6⟩
  simp only at c1 c2 c3 c4 c5 c6
  have hent : ∀ i j, i < A.n → C.entry i j = ∑ k ∈ range A.n, isMat A.U w m i k * A.entry k j := by
    intro i j hi
    rw [c5 i j hi, hrow i hi, hD i hi]
    by_cases e : i = j
    · subst e
      rw [if_pos rfl]
      unfold SplitCsr.entry
      rw [if_pos rfl, Strict.low_zero h.strict hi le_rfl, Strict.up_zero h.strict hi le_rfl, hD i hi]
      simp
    · rw [if_neg e, one_mul]
  have hpb : IsMul A.n A.n (isMat A.U w m) b.get pb.get := by
    intro i hi
    rw [c6 i hi, hrow i hi, hD i hi, one_mul]
  have hmul : ∀ x : ℕ → R, ∀ i, i < A.n → ∑ j ∈ range A.n, C.entry i j * x j =
      ∑ k ∈ range A.n, isMat A.U w m i k * ∑ j ∈ range A.n, A.entry k j * x j := by
    intro x i hi
    have : ∀ j, C.entry i j * x j = ∑ k ∈ range A.n, isMat A.U w m i k * (A.entry k j * x j) := by
      intro j
      rw [hent i j hi, sum_mul]
      exact sum_congr rfl fun k _ => by ring
    simp only [this]
    rw [sum_comm]
    exact sum_congr rfl fun k _ => by rw [mul_sum]
  refine ⟨c1, c2, c3, hent, hpb, fun x => ⟨fun hx => ?_, fun hx i hi => ?_⟩⟩
  · have h1 : IsMul A.U.n A.U.n (isMat A.U w m) (fun k => ∑ j ∈ range A.n, A.entry k j * x j) pb.get := by
      rw [hUn]
      intro i hi
      rw [hx i hi, hmul x i hi]
    have h2 : IsMul A.U.n A.U.n (isMat A.U w m) b.get pb.get := by rw [hUn]; exact hpb
    have := isMat_injective hU (by omega) (by rw [hUn]; exact h.strict.up) w m h1 h2
    intro i hi
    exact (this i (by omega)).symm
  · simp only
    rw [hpb i hi, hmul x i hi]
    exact sum_congr rfl fun k hk => by rw [hx k (mem_range.1 hk)]

end build


/-! ### hypotheses are met; findings -/

section examples

/-- `[[1,2,3],[4,1,5],[6,7,1]]`, split -/
def isEx : SplitCsr ℚ := ⟨3, 3, .ofList [1, 1, 1],
  ⟨3, 3, 3, .ofList [0, 0, 1, 3], .ofList [0, 0, 1], .ofList [4, 6, 7]⟩,
  ⟨3, 3, 3, .ofList [0, 2, 3, 3], .ofList [1, 2, 2], .ofList [2, 3, 5]⟩⟩

theorem isEx_ready : isEx.Ready where
  wf := ⟨by decide, by decide, rfl, rfl, rfl, rfl,
    ⟨⟨by decide, rfl, by decide, rfl⟩, by decide, by decide, by decide⟩,
    ⟨⟨by decide, rfl, by decide, rfl⟩, by decide, by decide, by decide⟩⟩
  strict := ⟨by
      intro i hi k h1 h2
      change i < 3 at hi
      obtain rfl | rfl | rfl : i = 0 ∨ i = 1 ∨ i = 2 := by omega
      · change 0 ≤ k at h1; change k < 0 at h2; omega
      · change 0 ≤ k at h1; change k < 1 at h2
        obtain rfl : k = 0 := by omega
        decide
      · change 1 ≤ k at h1; change k < 3 at h2
        obtain rfl | rfl : k = 1 ∨ k = 2 := by omega
        all_goals decide, by
      intro i hi k h1 h2
      change i < 3 at hi
      obtain rfl | rfl | rfl : i = 0 ∨ i = 1 ∨ i = 2 := by omega
      · change 0 ≤ k at h1; change k < 2 at h2
        obtain rfl | rfl : k = 0 ∨ k = 1 := by omega
        all_goals decide
      · change 2 ≤ k at h1; change k < 3 at h2
        obtain rfl : k = 2 := by omega
        decide
      · change 3 ≤ k at h1; change k < 3 at h2; omega⟩
  sq := rfl
  ld := by
    intro i hi k l h1 h2 h3 h4 e
    change i < 3 at hi
    obtain rfl | rfl | rfl : i = 0 ∨ i = 1 ∨ i = 2 := by omega
    · change k < 0 at h2; omega
    · change k < 1 at h2; change l < 1 at h4; omega
    · change 1 ≤ k at h1; change k < 3 at h2; change 1 ≤ l at h3; change l < 3 at h4
      obtain rfl | rfl : k = 1 ∨ k = 2 := by omega
      all_goals obtain rfl | rfl : l = 1 ∨ l = 2 := by omega
      all_goals first | rfl | exact absurd e (by decide)
  ud := by
    intro i hi k l h1 h2 h3 h4 e
    change i < 3 at hi
    obtain rfl | rfl | rfl : i = 0 ∨ i = 1 ∨ i = 2 := by omega
    · change k < 2 at h2; change l < 2 at h4
      obtain rfl | rfl : k = 0 ∨ k = 1 := by omega
      all_goals obtain rfl | rfl : l = 0 ∨ l = 1 := by omega
      all_goals first | rfl | exact absurd e (by decide)
    · change 2 ≤ k at h1; change k < 3 at h2; change 2 ≤ l at h3; change l < 3 at h4; omega
    · change 3 ≤ k at h1; change k < 3 at h2; omega

/-- the hypotheses of `createIsCsr_spec` are met by a matrix whose rows collide with each other in every way -/
example : Ok (createIsCsr (fun _ _ => 7) (fun _ _ => 9) (fun _ _ => 5) (fun _ => 3) isEx 1 4 (some (.ofList [1, 2, 3])))
    fun r => (∀ i j, i < 3 → r.1.entry i j = ∑ k ∈ range 3, isMat isEx.U 1 4 i k * isEx.entry k j) ∧
      ∀ x : ℕ → ℚ, IsMul 3 3 r.1.entry x r.2.get ↔ IsMul 3 3 isEx.entry x (Arr.ofList [1, 2, 3]).get :=
  (createIsCsr_spec _ _ _ _ isEx_ready (by decide +kernel) 1 4 (by decide)).mono fun _ h => ⟨h.2.2.2.1, h.2.2.2.2.2⟩

/-- the first row of the result: `(1,2,3) - 2 (4,1,5) - 3 (6,7,1)` -/
example : (createIsCsr (fun _ _ => 7) (fun _ _ => 9) (fun _ _ => 5) (fun _ => 3) isEx 1 4
    (some (.ofList [1, 2, 3]))).map (fun r => ((List.range 3).map fun j => r.1.entry 0 j, r.2.get 0)) =
    some ([-25, -21, -10], -12) := by decide +kernel

/-- `[[2,1],[0,2]]`, not scaled -/
def isEx2 : SplitCsr ℚ := ⟨2, 2, .ofList [2, 2],
  ⟨2, 2, 0, .ofList [0, 0, 0], .ofList [], .ofList []⟩,
  ⟨2, 2, 1, .ofList [0, 1, 1], .ofList [1], .ofList [1]⟩⟩

/-- Finding: the diagonal is copied, not multiplied by itself as the rest of the row is, so on a matrix that has not been
scaled yet the constructed system has another solution: `x = (1,1)` solves `A x = (3,2)` but not the new system. `lis_solve`
creates the preconditioner before it scales the matrix (src/solver/lis_solver.c:383 and 391, 613-624). -/
theorem is_unscaled_wrong :
    IsMul 2 2 isEx2.entry (fun _ => 1) (Arr.ofList [(3 : ℚ), 2]).get ∧
    Ok (createIsCsr (fun _ _ => 7) (fun _ _ => 9) (fun _ _ => 5) (fun _ => 3) isEx2 1 4 (some (.ofList [3, 2])))
      fun r => ¬ IsMul 2 2 r.1.entry (fun _ => 1) r.2.get := by
  refine ⟨by unfold IsMul; decide +kernel, ?_⟩
  have : (createIsCsr (fun _ _ => 7) (fun _ _ => 9) (fun _ _ => 5) (fun _ => 3) isEx2 1 4
    (some (.ofList [3, 2]))).map (fun r => (r.1.entry 0 0, r.1.entry 0 1, r.2.get 0)) = some (2, 0, 4) := by decide +kernel
  obtain ⟨r, hr, e⟩ := Option.map_eq_some_iff.1 this
  refine ⟨r, hr, fun h => ?_⟩
  have h0 := h 0 (by omega)
  simp only [Prod.mk.injEq] at e
  rw [sum_range_succ, sum_range_succ, sum_range_zero, e.1, e.2.1, e.2.2] at h0
  norm_num at h0

/-- `solver->b` of a solver object `lis_solve` has not been called with. src/solver/lis_solver.c:226 -/
def freshSolverB : Option (Arr R) := none

/-- Finding: the stationary solvers with `-p is` dereference a NULL pointer on the first `lis_solve`, which sets `solver->b`
only after creating the preconditioner (src/solver/lis_solver.c:374-391, 541). -/
theorem is_first_solve_null [Add R] [Mul R] [Neg R] (junk junk' : ℕ → ℕ → ℕ) (vjunk : ℕ → ℕ → R) (vjunk' : ℕ → R)
    (A : SplitCsr R) (w : R) (m : ℕ) : createIsCsr junk junk' vjunk vjunk' A w m freshSolverB = none := rfl

/-- the same upper triangle with the two elements of its first row stored in the other order -/
def isExSwap : Csr ℚ := ⟨3, 3, 3, .ofList [0, 2, 3, 3], .ofList [2, 1, 2], .ofList [3, 2, 5]⟩

/-- Finding: the preconditioner depends on the order in which a row happens to be stored: with `-is_m 0` two
representations of one matrix give different results. -/
theorem is_depends_on_order :
    (∀ i, i < 3 → ∀ j, j < 3 → isEx.U.entry i j = isExSwap.entry i j) ∧
    (psolveIs isEx.U 1 1 3 (.ofList [1, 1, 1]) (.ofList [0, 0, 0])).map Arr.toList ≠
      (psolveIs isExSwap 1 1 3 (.ofList [1, 1, 1]) (.ofList [0, 0, 0])).map Arr.toList := by
  decide +kernel

/-- the hypotheses of `psolveIs_spec`, `psolvehIs_spec` are met -/
example : Ok (psolveIs isEx.U (1 / 2) 1 3 (.ofList [1, 2, 3]) (.ofList [0, 0, 0])) fun y =>
    IsMul 3 3 (isMat isEx.U (1 / 2) 1) (Arr.ofList [1, 2, 3]).get y.get :=
  (psolveIs_spec isEx_ready.wf.uwf rfl (1 / 2) 1 (by decide) (by decide)).mono fun _ h => h.2.1
example : Ok (psolvehIs isEx.U (1 / 2) 1 3 3 (.ofList [1, 2, 3]) (.ofList [0, 0, 0])) fun y =>
    IsMulH 3 3 (isMat isEx.U (1 / 2) 1) (Arr.ofList [1, 2, 3]).get y.get :=
  (psolvehIs_spec isEx_ready.wf.uwf rfl (star_trivial _) 1 (by decide) (by decide)).mono fun _ h => h.2.1

end examples

end Lis
