import Verif.Props.CsrOps
import Verif.Props.Vector
import Verif.Spec.Tri
import Mathlib.Algebra.Star.BigOperators
import Mathlib.Tactic.LinearCombination

/-!
# C14: triangular solves with a split CSR matrix

`b` and `x` are handles: they may be the same vector.  `wd` is the working diagonal (`A->WD`), the inverse of `D`.
-/

namespace Lis
open Finset
variable {R : Type}

/-- only the first `n` elements of vector `x` may differ -/
structure OnlyChanged (h : Vecs R) (x n : ℕ) (h' : Vecs R) : Prop where
  other : ∀ w, w ≠ x → h' w = h w
  len : (h' x).n = (h x).n
  size : (h' x).value.size = (h x).value.size
  rest : ∀ j, n ≤ j → (h' x).value.get j = (h x).value.get j

theorem OnlyChanged.refl (h : Vecs R) (x n : ℕ) : OnlyChanged h x n h := ⟨fun _ _ => rfl, rfl, rfl, fun _ _ => rfl⟩

theorem OnlyChanged.trans {h h1 h2 : Vecs R} {x n : ℕ} (a : OnlyChanged h x n h1) (b : OnlyChanged h1 x n h2) :
    OnlyChanged h x n h2 :=
  ⟨fun w hw => by rw [b.other w hw, a.other w hw], by rw [b.len, a.len], by rw [b.size, a.size],
    fun j hj => by rw [b.rest j hj, a.rest j hj]⟩

/-- `h` with `x[i] = a` -/
def Vecs.upd (h : Vecs R) (x i : ℕ) (a : R) : Vecs R :=
  fun w => if w = x then ⟨(h x).n, (h x).value.set i a⟩ else h w

theorem OnlyChanged.upd {h h1 : Vecs R} {x n i : ℕ} (a : OnlyChanged h x n h1) (hi : i < n) (v : R) :
    OnlyChanged h x n (h1.upd x i v) := by
  refine ⟨fun w hw => by simp [Vecs.upd, hw, a.other w hw], by simp [Vecs.upd, a.len], by simp [Vecs.upd, a.size],
    fun j hj => ?_⟩
  simp only [Vecs.upd, if_true]
  rw [Arr.set_get_ne _ _ (by omega)]; exact a.rest j hj

theorem upd_get (h : Vecs R) (x i : ℕ) (v : R) (j : ℕ) :
    ((h.upd x i v) x).value.get j = if j = i then v else (h x).value.get j := by
  simp [Vecs.upd, Arr.set_get]

/-- increasing sweep: `x[i]` becomes `F i x`, where `F i` looks only at the elements already computed -/
theorem Ok_sweepUp {h0 : Vecs R} {x n : ℕ} {body : ℕ → Vecs R → Option (Vecs R)} (F : ℕ → (ℕ → R) → R)
    (hF : ∀ i u v, i < n → (∀ j, j < i → u j = v j) → F i u = F i v)
    (hb : ∀ i h, i < n → OnlyChanged h0 x n h → (∀ w j, i ≤ j → (h w).value.get j = (h0 w).value.get j) →
      Ok (body i h) fun h' => h' = h.upd x i (F i (h x).value.get)) {Q : Vecs R → Prop}
    (hq : ∀ h, OnlyChanged h0 x n h → (∀ i, i < n → (h x).value.get i = F i (h x).value.get) → Q h) :
    Ok (loop 0 n h0 body) Q := by
  refine Ok_loop_le (fun i h => OnlyChanged h0 x n h ∧ (∀ w j, i ≤ j → (h w).value.get j = (h0 w).value.get j) ∧
    ∀ r, r < i → (h x).value.get r = F r (h x).value.get) (Nat.zero_le _)
    ⟨OnlyChanged.refl _ _ _, fun _ _ _ => rfl, fun r hr => absurd hr (by omega)⟩ ?_ fun h ⟨a, _, c⟩ => hq h a c
  rintro i h - hi ⟨h1, h2, h3⟩
  refine (hb i h hi h1 h2).mono ?_
  rintro _ rfl
  refine ⟨h1.upd hi _, fun w j hj => ?_, fun r hr => ?_⟩
  · by_cases hw : w = x
    · subst hw; rw [upd_get, if_neg (by omega)]; exact h2 _ j (by omega)
    · simp only [Vecs.upd, if_neg hw]; exact h2 w j (by omega)
  · have hsame : ∀ j, j < i → ((h.upd x i (F i (h x).value.get)) x).value.get j = (h x).value.get j := fun j hj => by
      rw [upd_get, if_neg (by omega)]
    rw [hF r _ (h x).value.get (by omega) fun j hj => hsame j (by omega)]
    by_cases hri : r = i
    · subst hri; rw [upd_get, if_pos rfl]
    · rw [hsame r (by omega)]; exact h3 r (by omega)

/-- decreasing sweep -/
theorem Ok_sweepDown {h0 : Vecs R} {x n : ℕ} {body : ℕ → Vecs R → Option (Vecs R)} (F : ℕ → (ℕ → R) → R)
    (hF : ∀ i u v, i < n → (∀ j, i < j → j < n → u j = v j) → F i u = F i v)
    (hb : ∀ i h, i < n → OnlyChanged h0 x n h → (∀ w j, j ≤ i → (h w).value.get j = (h0 w).value.get j) →
      Ok (body i h) fun h' => h' = h.upd x i (F i (h x).value.get)) {Q : Vecs R → Prop}
    (hq : ∀ h, OnlyChanged h0 x n h → (∀ i, i < n → (h x).value.get i = F i (h x).value.get) → Q h) :
    Ok (loopDown 0 n h0 body) Q := by
  refine Ok_loopDown (fun i h => OnlyChanged h0 x n h ∧ (∀ w j, j < i → (h w).value.get j = (h0 w).value.get j) ∧
    ∀ r, i ≤ r → r < n → (h x).value.get r = F r (h x).value.get) (Nat.zero_le _)
    ⟨OnlyChanged.refl _ _ _, fun _ _ _ => rfl, fun r hr => by omega⟩ ?_
    fun h ⟨a, _, c⟩ => hq h a fun i hi => c i (by omega) hi
  rintro i h - hi ⟨h1, h2, h3⟩
  refine (hb i h hi h1 fun w j hj => h2 w j (by omega)).mono ?_
  rintro _ rfl
  refine ⟨h1.upd hi _, fun w j hj => ?_, fun r hr hrn => ?_⟩
  · by_cases hw : w = x
    · subst hw; rw [upd_get, if_neg (by omega)]; exact h2 _ j (by omega)
    · simp only [Vecs.upd, if_neg hw]; exact h2 w j (by omega)
  · have hsame : ∀ j, i < j → ((h.upd x i (F i (h x).value.get)) x).value.get j = (h x).value.get j := fun j hj => by
      rw [upd_get, if_neg (by omega)]
    rw [hF r _ (h x).value.get (by omega) fun j hj _ => hsame j (by omega)]
    by_cases hri : r = i
    · subst hri; rw [upd_get, if_pos rfl]
    · rw [hsame r (by omega)]; exact h3 r (by omega) hrn

section solve
variable [CommRing R]

/-- the row product over stored elements -/
def rowDot (A : Csr R) (i : ℕ) (u : ℕ → R) : R :=
  ∑ k ∈ Ico (A.ptr.get i) (A.ptr.get (i + 1)), A.value.get k * u (A.index.get k)

theorem rowDot_entry {A : Csr R} {i n : ℕ}
    (hn : ∀ k, A.ptr.get i ≤ k → k < A.ptr.get (i + 1) → A.index.get k < n) (u : ℕ → R) :
    rowDot A i u = ∑ j ∈ range n, A.entry i j * u j := by
  unfold rowDot Csr.entry
  exact sum_by_col fun k hk => hn k (mem_Ico.1 hk).1 (mem_Ico.1 hk).2

theorem rowDot_congr {A : Csr R} {i : ℕ} {u v : ℕ → R}
    (h : ∀ k, A.ptr.get i ≤ k → k < A.ptr.get (i + 1) → u (A.index.get k) = v (A.index.get k)) :
    rowDot A i u = rowDot A i v := by
  unfold rowDot
  refine sum_congr rfl fun k hk => ?_
  rw [mem_Ico] at hk
  rw [h k hk.1 hk.2]

theorem subRow_spec {A : Csr R} (hA : A.WF) {i x : ℕ} (hi : i < A.n) {h : Vecs R} (t : R)
    (hx : ∀ k, A.ptr.get i ≤ k → k < A.ptr.get (i + 1) → A.index.get k < (h x).value.size) :
    Ok (subRow A x i h t) fun r => r = t - rowDot A i (h x).value.get := by
  have hps := hA.ptr.size
  have his := hA.isz
  have hvs := hA.vsz
  unfold subRow
  simp only [Ok_bind, Ok_rd]
  refine ⟨by omega, by omega, ?_⟩
  refine Ok_loop_sum' (fun k => - (A.value.get k * (h x).value.get (A.index.get k))) (fun k t k1 k2 => ?_) ?_
  · have hk : k < A.nnz := hA.ptr.lt_nnz hi k2
    simp only [Ok_bind, Ok_rd, Ok_vrd, Ok_pure]
    exact ⟨by omega, by omega, hx k k1 k2, by rw [sub_eq_add_neg]⟩
  · rw [sum_neg_distrib, ← sub_eq_add_neg]; rfl

theorem solveRow_spec {A : Csr R} (hA : A.WF) {wd : Arr R} {i b x : ℕ} (hi : i < A.n) (hw : A.n ≤ wd.size) {h : Vecs R}
    (hb : i < (h b).value.size) (hxs : i < (h x).value.size)
    (hx : ∀ k, A.ptr.get i ≤ k → k < A.ptr.get (i + 1) → A.index.get k < (h x).value.size) :
    Ok (solveRow A wd b x i h) fun h' =>
      h' = h.upd x i (((h b).value.get i - rowDot A i (h x).value.get) * wd.get i) := by
  unfold solveRow
  simp only [Ok_bind, Ok_vrd]
  refine ⟨hb, ?_⟩
  refine (subRow_spec hA hi _ hx).mono ?_
  rintro _ rfl
  simp only [Ok_rd, Ok_vwr]
  exact ⟨by omega, hxs, rfl⟩

theorem solves_of_eq {n : ℕ} {D wd : ℕ → R} {a : ℕ → ℕ → R} {x b : ℕ → R} (hwd : ∀ i, i < n → D i * wd i = 1)
    (h : ∀ i, i < n → x i = (b i - ∑ j ∈ range n, a i j * x j) * wd i) : SolvesTri n D a x b := by
  intro i hi
  have h1 := h i hi
  have h2 := hwd i hi
  linear_combination D i * h1 + (b i - ∑ j ∈ range n, a i j * x j) * h2

theorem other_size {h0 h : Vecs R} {x n : ℕ} (a : OnlyChanged h0 x n h) (w : ℕ) :
    (h w).value.size = (h0 w).value.size := by
  by_cases hw : w = x
  · subst hw; exact a.size
  · rw [a.other w hw]

theorem forward_spec {A : SplitCsr R} (hA : A.WF) (hs : A.Strict) {wd : Arr R} (hw : A.n ≤ wd.size) {b x : ℕ}
    {h : Vecs R} (hb : A.n ≤ (h b).value.size) (hx : A.n ≤ (h x).value.size) {D : ℕ → R}
    (hwd : ∀ i, i < A.n → D i * wd.get i = 1) :
    Ok (loop 0 A.n h fun i h => solveRow A.L wd b x i h) fun h' => OnlyChanged h x A.n h' ∧
      SolvesTri A.n D A.L.entry (h'.el x) (h.el b) := by
  have hln := hA.ln
  refine Ok_sweepUp (x := x) (fun i u => ((h b).value.get i - rowDot A.L i u) * wd.get i) ?_ ?_ ?_
  · intro i u v hi huv
    rw [rowDot_congr fun k k1 k2 => huv _ (hs.low i hi k k1 k2)]
  · intro i h' hi hc hlat
    have s1 := other_size hc b
    have s2 := other_size hc x
    refine (solveRow_spec hA.lwf (by omega) (by omega) (by omega) (by omega) fun k k1 k2 => ?_).mono ?_
    · have := hs.low i hi k k1 k2; omega
    · rintro _ rfl; rw [hlat b i le_rfl]
  · intro h' hc he
    refine ⟨hc, solves_of_eq hwd fun i hi => ?_⟩
    have := he i hi
    rw [rowDot_entry (n := A.n) fun k k1 k2 => by have := hs.low i hi k k1 k2; omega] at this
    exact this

/-- **C14 (LOWER).** `lis_matrix_solve` returns `x` with `(D+L) x = b`. -/
theorem solveLowerCsr_spec {A : SplitCsr R} (hA : A.WF) (hs : A.Strict) {wd : Arr R} (hw : A.n ≤ wd.size) {b x : ℕ}
    {h : Vecs R} (hb : A.n ≤ (h b).value.size) (hx : A.n ≤ (h x).value.size) {D : ℕ → R}
    (hwd : ∀ i, i < A.n → D i * wd.get i = 1) :
    Ok (solveLowerCsr A wd b x h) fun h' => OnlyChanged h x A.n h' ∧
      SolvesTri A.n D A.L.entry (h'.el x) (h.el b) :=
  forward_spec hA hs hw hb hx hwd

/-- **C14 (UPPER).** `lis_matrix_solve` returns `x` with `(D+U) x = b`. -/
theorem solveUpperCsr_spec {A : SplitCsr R} (hA : A.WF) (hs : A.Strict) (hnp : A.np = A.n) {wd : Arr R}
    (hw : A.n ≤ wd.size) {b x : ℕ}
    {h : Vecs R} (hb : A.n ≤ (h b).value.size) (hx : A.n ≤ (h x).value.size) {D : ℕ → R}
    (hwd : ∀ i, i < A.n → D i * wd.get i = 1) :
    Ok (solveUpperCsr A wd b x h) fun h' => OnlyChanged h x A.n h' ∧
      SolvesTri A.n D A.U.entry (h'.el x) (h.el b) := by
  have hun := hA.un
  have hidx : ∀ i, i < A.n → ∀ k, A.U.ptr.get i ≤ k → k < A.U.ptr.get (i + 1) → A.U.index.get k < A.n := by
    intro i hi k _ k2
    have := hA.uwf.idx k (hA.uwf.ptr.lt_nnz (by omega) k2)
    rw [hA.unp] at this; omega
  refine Ok_sweepDown (x := x) (fun i u => ((h b).value.get i - rowDot A.U i u) * wd.get i) ?_ ?_ ?_
  · intro i u v hi huv
    rw [rowDot_congr fun k k1 k2 => huv _ (hs.up i hi k k1 k2) (hidx i hi k k1 k2)]
  · intro i h' hi hc hlat
    have s1 := other_size hc b
    have s2 := other_size hc x
    refine (solveRow_spec hA.uwf (by omega) (by omega) (by omega) (by omega) fun k k1 k2 => ?_).mono ?_
    · have := hidx i hi k k1 k2; omega
    · rintro _ rfl; rw [hlat b i le_rfl]
  · intro h' hc he
    refine ⟨hc, solves_of_eq hwd fun i hi => ?_⟩
    have := he i hi
    rw [rowDot_entry (n := A.n) (hidx i hi)] at this
    exact this

/-- **C14, exception.** For a distributed matrix (`np > n`) whose last row has a stored element outside its own rows,
the UPPER solve reads `x` at that column: outside a vector of length `n`. (SSOR skips such columns.) -/
theorem solveUpperCsr_oob {A : SplitCsr R} (hA : A.WF) {wd : Arr R} {b x : ℕ} {h : Vecs R}
    (hn : 0 < A.n) (hb : A.n ≤ (h b).value.size) (hx : (h x).value.size = A.n) {k : ℕ}
    (k1 : A.U.ptr.get (A.n - 1) ≤ k) (k2 : k < A.U.ptr.get A.n) (hk : A.n ≤ A.U.index.get k) :
    solveUpperCsr A wd b x h = none := by
  obtain ⟨m, hm⟩ : ∃ m, A.n = m + 1 := ⟨A.n - 1, by omega⟩
  have hun := hA.un
  have hps := hA.uwf.ptr.size
  unfold solveUpperCsr
  rw [hm]
  have : solveRow A.U wd b x m h = none := by
    unfold solveRow
    rw [show vrd h b m = some ((h b).value.get m) from by simp only [vrd, Arr.rd]; rw [if_pos (by omega)]]
    simp only [Option.bind_eq_bind, Option.bind_some]
    have : subRow A.U x m h ((h b).value.get m) = none := by
      unfold subRow
      rw [show A.U.ptr.rd m = some (A.U.ptr.get m) from by simp only [Arr.rd]; rw [if_pos (by omega)],
        show A.U.ptr.rd (m + 1) = some (A.U.ptr.get (m + 1)) from by simp only [Arr.rd]; rw [if_pos (by omega)]]
      simp only [Option.bind_eq_bind, Option.bind_some]
      rw [hm] at k1 k2
      simp only [Nat.add_sub_cancel] at k1
      refine loop_none k1 k2 fun t => ?_
      cases hv : A.U.value.rd k with
      | none => rfl
      | some v =>
        cases hc : A.U.index.rd k with
        | none => rfl
        | some c =>
          have : c = A.U.index.get k := by
            unfold Arr.rd at hc; split at hc <;> simp_all
          simp only [Option.bind_eq_bind, Option.bind_some]
          rw [show vrd h x c = none from by simp only [vrd, Arr.rd]; rw [if_neg (by omega)]]
          rfl
    rw [this]; rfl
  change ((solveRow A.U wd b x (m + 1 - 1 - (0 - 0)) h).bind _) = none
  rw [show m + 1 - 1 - (0 - 0) = m by omega, this]; rfl

/-- **C14 (SSOR).** `(D+L) D⁻¹ (D+U) x = b`, where for a distributed matrix (`np > n`) `U` is restricted to the
first `n` columns. -/
theorem solveSsorCsr_spec {A : SplitCsr R} (hA : A.WF) (hs : A.Strict) {wd : Arr R} (hw : A.n ≤ wd.size) {b x : ℕ}
    {h : Vecs R} (hb : A.n ≤ (h b).value.size) (hx : A.n ≤ (h x).value.size) {D : ℕ → R}
    (hwd : ∀ i, i < A.n → D i * wd.get i = 1) :
    Ok (solveSsorCsr A wd b x h) fun h' => OnlyChanged h x A.n h' ∧
      SolvesSsor A.n D A.L.entry A.U.entry (h'.el x) (h.el b) := by
  have hun := hA.un
  have hups := hA.uwf.ptr.size
  have huis := hA.uwf.isz
  have huvs := hA.uwf.vsz
  unfold solveSsorCsr
  rw [Ok_bind]
  refine (forward_spec hA hs hw hb hx hwd).mono ?_
  rintro h1 ⟨c1, f1⟩
  obtain ⟨G, hG⟩ : ∃ G : ℕ → (ℕ → R) → R, G = fun i u => ∑ k ∈ Ico (A.U.ptr.get i) (A.U.ptr.get (i + 1)),
    if A.U.index.get k < A.n then A.U.value.get k * u (A.U.index.get k) else 0 := ⟨_, rfl⟩
  have hGe : ∀ i u, G i u = ∑ j ∈ range A.n, A.U.entry i j * u j := by
    intro i u
    subst hG
    unfold Csr.entry
    simp_rw [Finset.sum_mul, ite_mul, zero_mul]
    rw [Finset.sum_comm]
    refine Finset.sum_congr rfl fun k _ => ?_
    rw [Finset.sum_ite_eq (range A.n) (A.U.index.get k)]
    simp only [mem_range]
  refine Ok_sweepDown (x := x) (fun i u => h1.el x i - G i u * wd.get i) ?_ ?_ ?_
  · intro i u v hi huv
    subst hG
    simp only
    congr 2
    refine sum_congr rfl fun k hk => ?_
    rw [mem_Ico] at hk
    split
    · next hlt => rw [huv _ (hs.up i hi k hk.1 hk.2) hlt]
    · rfl
  · intro i h' hi hc hlat
    have s1 := other_size c1 x
    have s2 := other_size hc x
    have : Ok (ssorAcc A.U A.n x i h') fun r => r = G i (h' x).value.get := by
      unfold ssorAcc
      simp only [Ok_bind, Ok_rd]
      refine ⟨by omega, by omega, ?_⟩
      subst hG
      refine Ok_loop_sum' (fun k => if A.U.index.get k < A.n then
        A.U.value.get k * (h' x).value.get (A.U.index.get k) else 0) (fun k t k1 k2 => ?_) (by rw [zero_add])
      have hk : k < A.U.nnz := hA.uwf.ptr.lt_nnz (by omega) k2
      simp only [Ok_bind, Ok_rd, Ok_ite, Ok_vrd, Ok_pure]
      refine ⟨by omega, fun hge => by rw [if_neg (by omega), add_zero], fun hlt => ⟨by omega, by omega, ?_⟩⟩
      rw [if_pos (by omega)]
    rw [Ok_bind]
    refine this.mono ?_
    rintro _ rfl
    simp only [Ok_bind, Ok_vrd, Ok_rd, Ok_vwr]
    refine ⟨by omega, by omega, by omega, ?_⟩
    rw [hlat x i le_rfl]; rfl
  · intro h' hc he
    refine ⟨c1.trans hc, h1.el x, f1, fun i hi => ?_⟩
    have e := he i hi
    have h2 := hwd i hi
    rw [hGe] at e
    simp only [Vecs.el] at e ⊢
    linear_combination D i * e - (∑ j ∈ range A.n, A.U.entry i j * (h' x).value.get j) * h2

end solve

/-! ### conjugate transposed solves -/

section solveh
variable [CommRing R] [StarRing R]

/-- element `(i,j)` of `Aᴴ` read by rows of `A` -/
theorem star_entry (A : Csr R) (i j : ℕ) : star (A.entry i j) =
    ∑ k ∈ Ico (A.ptr.get i) (A.ptr.get (i + 1)), if A.index.get k = j then star (A.value.get k) else 0 := by
  unfold Csr.entry
  rw [star_sum]
  refine sum_congr rfl fun k _ => ?_
  split
  · rfl
  · exact star_zero R

theorem scatterRowT_spec {A : Csr R} (hA : A.WF) {i x n : ℕ} (hi : i < A.n) {h0 h : Vecs R} (hc : OnlyChanged h0 x n h) (t : R)
    (hx : ∀ k, A.ptr.get i ≤ k → k < A.ptr.get (i + 1) → A.index.get k < (h x).value.size)
    (hn : ∀ k, A.ptr.get i ≤ k → k < A.ptr.get (i + 1) → A.index.get k < n) :
    Ok (scatterRowT star A x i t h) fun h' => OnlyChanged h0 x n h' ∧
      ∀ j, (h' x).value.get j = (h x).value.get j - star (A.entry i j) * t := by
  have hps := hA.ptr.size
  have his := hA.isz
  have hvs := hA.vsz
  have hm := hA.ptr.mono i hi
  unfold scatterRowT
  simp only [Ok_bind, Ok_rd]
  refine ⟨by omega, by omega, ?_⟩
  refine Ok_loop_le (fun k h' => OnlyChanged h0 x n h' ∧ (h' x).value.size = (h x).value.size ∧
    ∀ j, (h' x).value.get j = (h x).value.get j -
      (∑ k ∈ Ico (A.ptr.get i) k, if A.index.get k = j then star (A.value.get k) else 0) * t) hm
    ⟨hc, rfl, by simp⟩ ?_ ?_
  · rintro k h' k1 k2 ⟨a1, a2, a3⟩
    have hk : k < A.nnz := hA.ptr.lt_nnz hi k2
    have hxk := hx k k1 k2
    simp only [Ok_bind, Ok_rd, Ok_vrd]
    rw [Ok_vwr]
    refine ⟨by omega, by omega, by omega, by omega, a1.upd (hn k k1 k2) _, by simp [a2], fun j => ?_⟩
    refine (upd_get h' x (A.index.get k) _ j).trans ?_
    rw [sum_Ico_succ_top k1]
    split
    · next hj => rw [hj, if_pos rfl, a3]; ring
    · next hj => rw [if_neg fun h => hj h.symm, a3, add_zero]
  · rintro h' ⟨a1, a2, a3⟩
    exact ⟨a1, fun j => by rw [a3, star_entry]⟩

theorem scatterRowH_eq {A : Csr R} (hA : A.WF) {i x : ℕ} (hi : i < A.n) {h : Vecs R} (hxs : i < (h x).value.size)
    (hx : ∀ k, A.ptr.get i ≤ k → k < A.ptr.get (i + 1) → A.index.get k < (h x).value.size)
    (hne : ∀ k, A.ptr.get i ≤ k → k < A.ptr.get (i + 1) → A.index.get k ≠ i) :
    scatterRowH star A x i h = scatterRowT star A x i ((h x).value.get i) h := by
  have hps := hA.ptr.size
  unfold scatterRowH scatterRowT
  have r1 : A.ptr.rd i = some (A.ptr.get i) := by simp [Arr.rd]; omega
  have r2 : A.ptr.rd (i + 1) = some (A.ptr.get (i + 1)) := by simp [Arr.rd]; omega
  rw [r1, r2]
  simp only [Option.bind_eq_bind, Option.bind_some]
  unfold loop
  suffices H : ∀ m k (h' : Vecs R), A.ptr.get i ≤ k → k + m ≤ A.ptr.get (i + 1) →
      (h' x).value.size = (h x).value.size → (h' x).value.get i = (h x).value.get i →
      iter (fun j h => do
        let v ← A.value.rd j
        let c ← A.index.rd j
        let xc ← vrd h x c
        let t ← vrd h x i
        vwr h x c (xc - star v * t)) m k h' =
      iter (fun j h' => do
        let v ← A.value.rd j
        let c ← A.index.rd j
        let xc ← vrd h' x c
        vwr h' x c (xc - star v * (h x).value.get i)) m k h' by
    have hm := hA.ptr.mono i hi
    exact H _ _ h le_rfl (by omega) rfl rfl
  have his := hA.isz
  have hvs := hA.vsz
  intro m
  induction m with
  | zero => intros; rfl
  | succ m ih =>
    intro k h' k1 k2 hsz hget
    have hk : k < A.nnz := hA.ptr.lt_nnz hi (by omega)
    have v1 : A.value.rd k = some (A.value.get k) := by simp [Arr.rd]; omega
    have v2 : A.index.rd k = some (A.index.get k) := by simp [Arr.rd]; omega
    have v3 : vrd h' x (A.index.get k) = some ((h' x).value.get (A.index.get k)) := by
      have := hx k k1 (by omega)
      simp only [vrd, Arr.rd]; rw [if_pos (by omega)]
    have v4 : vrd h' x i = some ((h x).value.get i) := by
      simp only [vrd, Arr.rd]; rw [if_pos (by omega), hget]
    simp only [iter, v1, v2, v3, v4, Option.bind_eq_bind, Option.bind_some]
    have v5 : ∀ a, vwr h' x (A.index.get k) a = some (h'.upd x (A.index.get k) a) := fun a => by
      have := hx k k1 (by omega)
      simp only [vwr, Arr.wr]; rw [if_pos (by omega)]; rfl
    rw [v5]
    simp only [Option.bind_some]
    refine ih (k + 1) _ (by omega) (by omega) (by simp [Vecs.upd, hsz]) ?_
    rw [upd_get, if_neg (hne k k1 (by omega)).symm, hget]

theorem star_wd {D w : R} (h : D * w = 1) : star D * star w = 1 := by
  rw [← star_mul', h, star_one]

/-- column-oriented forward elimination: `(D+U)ᴴ x = b` -/
theorem fwdH {A : SplitCsr R} (hA : A.WF) (hs : A.Strict) (hnp : A.np = A.n) {wd : Arr R} (hw : A.n ≤ wd.size) {x : ℕ}
    {h : Vecs R} (hx : A.n ≤ (h x).value.size) :
    Ok (loop 0 A.n h fun i h => do
      let xi ← vrd h x i
      let w ← wd.rd i
      let h ← vwr h x i (xi * star w)
      scatterRowH star A.U x i h) fun h' => OnlyChanged h x A.n h' ∧
      ∀ r, r < A.n → h'.el x r = (h.el x r - ∑ j ∈ range r, star (A.U.entry j r) * h'.el x j) * star (wd.get r) := by
  have hun := hA.un
  have hidx : ∀ i, i < A.n → ∀ k, A.U.ptr.get i ≤ k → k < A.U.ptr.get (i + 1) → A.U.index.get k < A.n := by
    intro i hi k _ k2
    have := hA.uwf.idx k (hA.uwf.ptr.lt_nnz (by omega) k2)
    rw [hA.unp] at this; omega
  refine Ok_loop_le (fun i h' => OnlyChanged h x A.n h' ∧
    (∀ r, r < i → h'.el x r = (h.el x r - ∑ j ∈ range r, star (A.U.entry j r) * h'.el x j) * star (wd.get r)) ∧
    (∀ r, i ≤ r → r < A.n → h'.el x r = h.el x r - ∑ j ∈ range i, star (A.U.entry j r) * h'.el x j)) (Nat.zero_le _)
    ⟨OnlyChanged.refl _ _ _, fun r hr => absurd hr (by omega), fun r _ _ => by simp⟩ ?_
    fun h' ⟨a, b, _⟩ => ⟨a, fun r hr => b r hr⟩
  rintro i h1 - hi ⟨c1, c2, c3⟩
  have s1 := other_size c1 x
  simp only [Ok_bind, Ok_vrd, Ok_rd, Ok_vwr]
  refine ⟨by omega, by omega, by omega, ?_⟩
  have c4 := c1.upd hi ((h1 x).value.get i * star (wd.get i))
  have s2 := other_size c4 x
  change Ok (scatterRowH star A.U x i (h1.upd x i ((h1 x).value.get i * star (wd.get i)))) _
  rw [scatterRowH_eq hA.uwf (by omega) (by omega) (fun k k1 k2 => by have := hidx i hi k k1 k2; omega)
    (fun k k1 k2 => by have := hs.up i hi k k1 k2; omega), upd_get, if_pos rfl]
  refine (scatterRowT_spec hA.uwf (by omega) c4 _ (fun k k1 k2 => by have := hidx i hi k k1 k2; omega)
    (hidx i hi)).mono ?_
  rintro h2 ⟨d1, d2⟩
  have z : ∀ j, j ≤ i → star (A.U.entry i j) = 0 := fun j hj => by
    rw [Csr.entry_absent fun k k1 k2 => by have := hs.up i hi k k1 k2; omega, star_zero]
  have low : ∀ j, j < i → h2.el x j = h1.el x j := fun j hj => by
    simp only [Vecs.el]
    rw [d2, upd_get, if_neg (by omega), z j (by omega), zero_mul, sub_zero]
  have at_i : h2.el x i = h1.el x i * star (wd.get i) := by
    simp only [Vecs.el]
    rw [d2, upd_get, if_pos rfl, z i le_rfl, zero_mul, sub_zero]
  have sums : ∀ r m, m ≤ i → ∑ j ∈ range m, star (A.U.entry j r) * h2.el x j =
      ∑ j ∈ range m, star (A.U.entry j r) * h1.el x j := fun r m hm =>
    sum_congr rfl fun j hj => by rw [low j (by rw [mem_range] at hj; omega)]
  refine ⟨d1, fun r hr => ?_, fun r hr hrn => ?_⟩
  · rw [sums r r (by omega)]
    by_cases hri : r = i
    · subst hri; rw [at_i, c3 r le_rfl hi]
    · rw [low r (by omega)]; exact c2 r (by omega)
  · rw [sum_range_succ, sums r i le_rfl, at_i]
    have : h2.el x r = h1.el x r - star (A.U.entry i r) * (h1.el x i * star (wd.get i)) := by
      simp only [Vecs.el]
      rw [d2, upd_get, if_neg (by omega)]
    rw [this, c3 r (by omega) hrn]; ring

/-- column-oriented backward elimination (also with the local copy `t`): `(D+L)ᴴ x = b` -/
theorem bwdH {A : SplitCsr R} (hA : A.WF) (hs : A.Strict) {wd : Arr R} (hw : A.n ≤ wd.size) {x : ℕ}
    {h : Vecs R} (hx : A.n ≤ (h x).value.size) {body : ℕ → Vecs R → Option (Vecs R)}
    (hbody : ∀ i (h' : Vecs R), i < A.n → A.n ≤ (h' x).value.size → body i h' =
      scatterRowT star A.L x i ((h' x).value.get i * star (wd.get i)) (h'.upd x i ((h' x).value.get i * star (wd.get i)))) :
    Ok (loopDown 0 A.n h body) fun h' => OnlyChanged h x A.n h' ∧
      ∀ r, r < A.n → h'.el x r =
        (h.el x r - ∑ j ∈ Ico (r + 1) A.n, star (A.L.entry j r) * h'.el x j) * star (wd.get r) := by
  have hln := hA.ln
  refine Ok_loopDown (fun i h' => OnlyChanged h x A.n h' ∧
    (∀ r, i ≤ r → r < A.n → h'.el x r =
      (h.el x r - ∑ j ∈ Ico (r + 1) A.n, star (A.L.entry j r) * h'.el x j) * star (wd.get r)) ∧
    (∀ r, r < i → h'.el x r = h.el x r - ∑ j ∈ Ico i A.n, star (A.L.entry j r) * h'.el x j)) (Nat.zero_le _)
    ⟨OnlyChanged.refl _ _ _, fun r hr hr' => by omega, fun r _ => by simp⟩ ?_
    fun h' ⟨a, b, _⟩ => ⟨a, fun r hr => b r (by omega) hr⟩
  rintro i h1 - hi ⟨c1, c2, c3⟩
  have s1 := other_size c1 x
  have c4 := c1.upd hi ((h1 x).value.get i * star (wd.get i))
  have s2 := other_size c4 x
  rw [hbody i h1 hi (by omega)]
  have hlow := hs.low i hi
  refine (scatterRowT_spec hA.lwf (by omega) c4 _ (fun k k1 k2 => by have := hlow k k1 k2; omega)
    (fun k k1 k2 => by have := hlow k k1 k2; omega)).mono ?_
  rintro h2 ⟨d1, d2⟩
  have z : ∀ j, i ≤ j → star (A.L.entry i j) = 0 := fun j hj => by
    rw [Csr.entry_absent fun k k1 k2 => by have := hlow k k1 k2; omega, star_zero]
  have low : ∀ j, i < j → h2.el x j = h1.el x j := fun j hj => by
    simp only [Vecs.el]
    rw [d2, upd_get, if_neg (by omega), z j (by omega), zero_mul, sub_zero]
  have at_i : h2.el x i = h1.el x i * star (wd.get i) := by
    simp only [Vecs.el]
    rw [d2, upd_get, if_pos rfl, z i le_rfl, zero_mul, sub_zero]
  have sums : ∀ r m, i < m → ∑ j ∈ Ico m A.n, star (A.L.entry j r) * h2.el x j =
      ∑ j ∈ Ico m A.n, star (A.L.entry j r) * h1.el x j := fun r m hm =>
    sum_congr rfl fun j hj => by rw [low j (by rw [mem_Ico] at hj; omega)]
  refine ⟨d1, fun r hr hrn => ?_, fun r hr => ?_⟩
  · rw [sums r (r + 1) (by omega)]
    by_cases hri : r = i
    · subst hri; rw [at_i, c3 r (by omega)]
    · rw [low r (by omega)]; exact c2 r (by omega) hrn
  · rw [sum_eq_sum_Ico_succ_bot hi, sums r (i + 1) (by omega), at_i]
    have : h2.el x r = h1.el x r - star (A.L.entry i r) * (h1.el x i * star (wd.get i)) := by
      simp only [Vecs.el]
      rw [d2, upd_get, if_neg (by omega)]
    rw [this, c3 r (by omega)]; ring

theorem solvesH_fwd {A : SplitCsr R} (hs : A.Strict) {D : ℕ → R} {wd : Arr R}
    (hwd : ∀ i, i < A.n → D i * wd.get i = 1) {x b : ℕ → R}
    (h : ∀ r, r < A.n → x r = (b r - ∑ j ∈ range r, star (A.U.entry j r) * x j) * star (wd.get r)) :
    SolvesTriH A.n D A.U.entry x b := by
  intro i hi
  have hsum : ∑ j ∈ range A.n, star (A.U.entry j i) * x j = ∑ j ∈ range i, star (A.U.entry j i) * x j := by
    symm
    refine sum_subset (fun j hj => by rw [mem_range] at *; omega) fun j hj hj' => ?_
    rw [mem_range] at hj hj'
    rw [Csr.entry_absent fun k k1 k2 => by have := hs.up j hj k k1 k2; omega, star_zero, zero_mul]
  rw [hsum]
  have h1 := h i hi
  have h2 := star_wd (hwd i hi)
  linear_combination star (D i) * h1 + (b i - ∑ j ∈ range i, star (A.U.entry j i) * x j) * h2

theorem solvesH_bwd {A : SplitCsr R} (hs : A.Strict) {D : ℕ → R} {wd : Arr R}
    (hwd : ∀ i, i < A.n → D i * wd.get i = 1) {x b : ℕ → R}
    (h : ∀ r, r < A.n → x r = (b r - ∑ j ∈ Ico (r + 1) A.n, star (A.L.entry j r) * x j) * star (wd.get r)) :
    SolvesTriH A.n D A.L.entry x b := by
  intro i hi
  have hsum : ∑ j ∈ range A.n, star (A.L.entry j i) * x j = ∑ j ∈ Ico (i + 1) A.n, star (A.L.entry j i) * x j := by
    symm
    refine sum_subset (fun j hj => by rw [mem_Ico] at hj; rw [mem_range]; omega) fun j hj hj' => ?_
    rw [mem_range] at hj
    rw [mem_Ico] at hj'
    rw [Csr.entry_absent fun k k1 k2 => by have := hs.low j hj k k1 k2; omega, star_zero, zero_mul]
  rw [hsum]
  have h1 := h i hi
  have h2 := star_wd (hwd i hi)
  linear_combination star (D i) * h1 + (b i - ∑ j ∈ Ico (i + 1) A.n, star (A.L.entry j i) * x j) * h2

omit [CommRing R] [StarRing R] in
theorem Assigned.only {h h' : Vecs R} {x : ℕ} {g : ℕ → R} (a : Assigned h x g h') : OnlyChanged h x (h x).n h' :=
  ⟨a.other, a.len, a.size, fun j hj => by rw [a.get, if_neg (by omega)]⟩

theorem upd_body {A : SplitCsr R} {wd : Arr R} (hw : A.n ≤ wd.size) {x i : ℕ} {h' : Vecs R} (hi : i < A.n)
    (hx : A.n ≤ (h' x).value.size) :
    vrd h' x i = some ((h' x).value.get i) ∧ wd.rd i = some (wd.get i) ∧
      ∀ a, vwr h' x i a = some (h'.upd x i a) := by
  refine ⟨by simp only [vrd, Arr.rd]; rw [if_pos (by omega)], by simp only [Arr.rd]; rw [if_pos (by omega)], fun a => ?_⟩
  simp only [vwr, Arr.wr]; rw [if_pos (by omega)]; rfl

/-- **C14 (solveh LOWER).** `(D+U)ᴴ x = b`. -/
theorem solvehLowerCsr_spec {A : SplitCsr R} (hA : A.WF) (hs : A.Strict) (hnp : A.np = A.n) {wd : Arr R}
    (hw : A.n ≤ wd.size) {b x : ℕ} {h : Vecs R} (hbn : (h b).n = A.n) (hxn : (h x).n = A.n) (hb : h.WF b) (hx : h.WF x)
    {D : ℕ → R} (hwd : ∀ i, i < A.n → D i * wd.get i = 1) :
    Ok (solvehLowerCsr star A wd b x h) fun h' => OnlyChanged h x A.n h' ∧
      SolvesTriH A.n D A.U.entry (h'.el x) (h.el b) := by
  unfold solvehLowerCsr
  rw [Ok_bind]
  refine (vectorCopy_spec h b x hb hx (by omega)).mono ?_
  rintro ⟨e, h1⟩ ⟨-, a⟩
  simp only at a
  have o1 : OnlyChanged h x A.n h1 := hxn ▸ a.only
  have hx' : A.n ≤ (h1 x).value.size := by rw [a.size, ← hxn]; exact hx
  refine (fwdH hA hs hnp hw hx').mono ?_
  rintro h2 ⟨o2, f⟩
  refine ⟨o1.trans o2, solvesH_fwd hs hwd fun r hr => ?_⟩
  rw [f r hr]
  have : h1.el x r = h.el b r := by simp only [Vecs.el]; rw [a.get, if_pos (by omega)]; rfl
  rw [this]

/-- **C14 (solveh UPPER).** `(D+L)ᴴ x = b`. -/
theorem solvehUpperCsr_spec {A : SplitCsr R} (hA : A.WF) (hs : A.Strict) {wd : Arr R}
    (hw : A.n ≤ wd.size) {b x : ℕ} {h : Vecs R} (hbn : (h b).n = A.n) (hxn : (h x).n = A.n) (hb : h.WF b) (hx : h.WF x)
    {D : ℕ → R} (hwd : ∀ i, i < A.n → D i * wd.get i = 1) :
    Ok (solvehUpperCsr star A wd b x h) fun h' => OnlyChanged h x A.n h' ∧
      SolvesTriH A.n D A.L.entry (h'.el x) (h.el b) := by
  have hln := hA.ln
  unfold solvehUpperCsr
  rw [Ok_bind]
  refine (vectorCopy_spec h b x hb hx (by omega)).mono ?_
  rintro ⟨e, h1⟩ ⟨-, a⟩
  simp only at a
  have o1 : OnlyChanged h x A.n h1 := hxn ▸ a.only
  have hx' : A.n ≤ (h1 x).value.size := by rw [a.size, ← hxn]; exact hx
  refine (bwdH hA hs hw hx' ?_).mono ?_
  · intro i h' hi hsz
    obtain ⟨u1, u2, u3⟩ := upd_body hw hi hsz
    rw [u1, u2]
    simp only [Option.bind_eq_bind, Option.bind_some]
    rw [u3, Option.bind_some, scatterRowH_eq hA.lwf (by omega) (by simp [Vecs.upd]; omega)
      (fun k k1 k2 => by have := hs.low i hi k k1 k2; simp [Vecs.upd]; omega)
      (fun k k1 k2 => by have := hs.low i hi k k1 k2; omega), upd_get, if_pos rfl]
  rintro h2 ⟨o2, f⟩
  refine ⟨o1.trans o2, solvesH_bwd hs hwd fun r hr => ?_⟩
  rw [f r hr]
  have : h1.el x r = h.el b r := by simp only [Vecs.el]; rw [a.get, if_pos (by omega)]; rfl
  rw [this]

/-- **C14 (solveh SSOR).** `((D+L) D⁻¹ (D+U))ᴴ x = b`. -/
theorem solvehSsorCsr_spec {A : SplitCsr R} (hA : A.WF) (hs : A.Strict) (hnp : A.np = A.n) {wd : Arr R}
    (hw : A.n ≤ wd.size) {b x : ℕ} {h : Vecs R} (hbn : (h b).n = A.n) (hxn : (h x).n = A.n) (hb : h.WF b) (hx : h.WF x)
    {D : ℕ → R} (hwd : ∀ i, i < A.n → D i * wd.get i = 1) :
    Ok (solvehSsorCsr star A wd b x h) fun h' => OnlyChanged h x A.n h' ∧
      SolvesSsorH A.n D A.L.entry A.U.entry (h'.el x) (h.el b) := by
  have hun := hA.un
  have hidx : ∀ i, i < A.n → ∀ k, A.U.ptr.get i ≤ k → k < A.U.ptr.get (i + 1) → A.U.index.get k < A.n := by
    intro i hi k _ k2
    have := hA.uwf.idx k (hA.uwf.ptr.lt_nnz (by omega) k2)
    rw [hA.unp] at this; omega
  unfold solvehSsorCsr
  rw [Ok_bind]
  refine (vectorCopy_spec h b x hb hx (by omega)).mono ?_
  rintro ⟨e, h1⟩ ⟨-, a⟩
  simp only at a
  have o1 : OnlyChanged h x A.n h1 := hxn ▸ a.only
  have hx' : A.n ≤ (h1 x).value.size := by rw [a.size, ← hxn]; exact hx
  rw [Ok_bind]
  refine Ok_loop_le (fun i h' => OnlyChanged h1 x A.n h' ∧
    (∀ r, r < i → h'.el x r = h1.el x r - ∑ j ∈ range r, star (A.U.entry j r) * (h'.el x j * star (wd.get j))) ∧
    (∀ r, i ≤ r → r < A.n → h'.el x r = h1.el x r -
      ∑ j ∈ range i, star (A.U.entry j r) * (h'.el x j * star (wd.get j)))) (Nat.zero_le _)
    ⟨OnlyChanged.refl _ _ _, fun r hr => absurd hr (by omega), fun r _ _ => by simp⟩ ?_ ?_
  · rintro i h2 - hi ⟨c1, c2, c3⟩
    have s1 := other_size c1 x
    simp only [Ok_bind, Ok_vrd, Ok_rd]
    refine ⟨by omega, by omega, ?_⟩
    refine (scatterRowT_spec hA.uwf (by omega) c1 _ (fun k k1 k2 => by have := hidx i hi k k1 k2; omega)
      (hidx i hi)).mono ?_
    rintro h3 ⟨d1, d2⟩
    have low : ∀ j, j ≤ i → h3.el x j = h2.el x j := fun j hj => by
      simp only [Vecs.el]
      rw [d2, Csr.entry_absent fun k k1 k2 => by have := hs.up i hi k k1 k2; omega, star_zero, zero_mul, sub_zero]
    have sums : ∀ r m, m ≤ i + 1 → ∑ j ∈ range m, star (A.U.entry j r) * (h3.el x j * star (wd.get j)) =
        ∑ j ∈ range m, star (A.U.entry j r) * (h2.el x j * star (wd.get j)) := fun r m hm =>
      sum_congr rfl fun j hj => by rw [low j (by rw [mem_range] at hj; omega)]
    refine ⟨d1, fun r hr => ?_, fun r hr hrn => ?_⟩
    · rw [sums r r (by omega), low r (by omega)]
      by_cases hri : r = i
      · subst hri; exact c3 r le_rfl hi
      · exact c2 r (by omega)
    · rw [sums r (i + 1) le_rfl, sum_range_succ]
      have : h3.el x r = h2.el x r - star (A.U.entry i r) * (h2.el x i * star (wd.get i)) := by
        simp only [Vecs.el]; rw [d2]
      rw [this, c3 r (by omega) hrn]; ring
  · rintro h2 ⟨c1, c2, -⟩
    have s1 := other_size c1 x
    refine (bwdH (x := x) hA hs hw (by omega) ?_).mono ?_
    · intro i h' hi hsz
      obtain ⟨u1, u2, u3⟩ := upd_body hw hi hsz
      rw [u1, u2]
      simp only [Option.bind_eq_bind, Option.bind_some]
      rw [u3, Option.bind_some]
    · rintro h3 ⟨o3, f⟩
      refine ⟨(o1.trans c1).trans o3, fun i => h2.el x i * star (wd.get i), solvesH_fwd hs hwd fun r hr => ?_, ?_⟩
      · rw [c2 r hr]
        have : h1.el x r = h.el b r := by simp only [Vecs.el]; rw [a.get, if_pos (by omega)]; rfl
        rw [this]
      · refine solvesH_bwd hs hwd fun r hr => ?_
        rw [f r hr]
        congr 2
        have h2' := star_wd (hwd r hr)
        linear_combination (-(h2.el x r)) * h2'

end solveh
end Lis
