import Verif.Model.SolveCscMsr
import Verif.Props.CsrSolve

/-!
# C68: triangular solves with CSC and MSR matrices
-/

namespace Lis
open Finset
variable {R : Type}

/-! ### CSC -/

/-- the parts of a split CSC matrix are strictly lower and strictly upper -/
structure SplitCsc.Strict (A : SplitCsc R) : Prop where
  low : ∀ j, j < A.n → ∀ k, A.L.ptr.get j ≤ k → k < A.L.ptr.get (j + 1) → j < A.L.index.get k
  up : ∀ j, j < A.n → ∀ k, A.U.ptr.get j ≤ k → k < A.U.ptr.get (j + 1) → A.U.index.get k < j

/-- the transposed matrix in CSR format: the same arrays -/
def SplitCsc.view (A : SplitCsc R) : SplitCsr R := ⟨A.np, A.n, A.D, A.U.cols, A.L.cols⟩

theorem Csc.cols_wf {A : Csc R} (h : A.WF) : A.cols.WF := ⟨h.ptr, h.isz, h.vsz, h.idx⟩

theorem SplitCsc.view_wf {A : SplitCsc R} (h : A.WF) : A.view.WF :=
  ⟨by show A.np ≤ _; rw [← h.le]; exact h.dsz, by show A.np ≤ A.n; rw [h.le], h.unp, h.un, h.lnp, h.ln,
    Csc.cols_wf h.uwf, Csc.cols_wf h.lwf⟩

theorem SplitCsc.view_strict {A : SplitCsc R} (h : A.WF) (s : A.Strict) : A.view.Strict :=
  ⟨fun i hi k => s.up i (by rw [h.le]; exact hi) k, fun i hi k => s.low i (by rw [h.le]; exact hi) k⟩

section
variable [CommRing R]

/-- **C68 (CSC, LOWER).** `lis_matrix_solve` returns `x` with `(D+L) x = b`. -/
theorem solveLowerCsc_spec {A : SplitCsc R} (hA : A.WF) (hs : A.Strict) {wd : Arr R}
    (hw : A.n ≤ wd.size) {b x : ℕ} {h : Vecs R} (hbn : (h b).n = A.n) (hxn : (h x).n = A.n) (hb : h.WF b) (hx : h.WF x)
    {D : ℕ → R} (hwd : ∀ i, i < A.n → D i * wd.get i = 1) :
    Ok (solveLowerCsc A wd b x h) fun h' => OnlyChanged h x A.n h' ∧
      SolvesTri A.n D A.L.entry (h'.el x) (h.el b) := by
  letI : StarRing R := starRingOfComm
  have e := hA.le
  have := solvehLowerCsr_spec (A := A.view) (A.view_wf hA) (A.view_strict hA hs) e (wd := wd) (by rw [e] at hw; exact hw)
    (by rw [e] at hbn; exact hbn) (by rw [e] at hxn; exact hxn) hb hx (D := D) (fun i hi => hwd i (by rw [e]; exact hi))
  rw [e]
  exact this

/-- **C68 (CSC, UPPER).** `(D+U) x = b`. -/
theorem solveUpperCsc_spec {A : SplitCsc R} (hA : A.WF) (hs : A.Strict) {wd : Arr R}
    (hw : A.n ≤ wd.size) {b x : ℕ} {h : Vecs R} (hbn : (h b).n = A.n) (hxn : (h x).n = A.n) (hb : h.WF b) (hx : h.WF x)
    {D : ℕ → R} (hwd : ∀ i, i < A.n → D i * wd.get i = 1) :
    Ok (solveUpperCsc A wd b x h) fun h' => OnlyChanged h x A.n h' ∧
      SolvesTri A.n D A.U.entry (h'.el x) (h.el b) := by
  letI : StarRing R := starRingOfComm
  have e := hA.le
  have := solvehUpperCsr_spec (A := A.view) (A.view_wf hA) (A.view_strict hA hs) (wd := wd) (by rw [e] at hw; exact hw)
    (by rw [e] at hbn; exact hbn) (by rw [e] at hxn; exact hxn) hb hx (D := D) (fun i hi => hwd i (by rw [e]; exact hi))
  unfold solveUpperCsc
  rw [e]
  exact this

/-- **C68 (CSC, SSOR).** `(D+L) D⁻¹ (D+U) x = b`. -/
theorem solveSsorCsc_spec {A : SplitCsc R} (hA : A.WF) (hs : A.Strict) {wd : Arr R}
    (hw : A.n ≤ wd.size) {b x : ℕ} {h : Vecs R} (hbn : (h b).n = A.n) (hxn : (h x).n = A.n) (hb : h.WF b) (hx : h.WF x)
    {D : ℕ → R} (hwd : ∀ i, i < A.n → D i * wd.get i = 1) :
    Ok (solveSsorCsc A wd b x h) fun h' => OnlyChanged h x A.n h' ∧
      SolvesSsor A.n D A.L.entry A.U.entry (h'.el x) (h.el b) := by
  letI : StarRing R := starRingOfComm
  have e := hA.le
  have := solvehSsorCsr_spec (A := A.view) (A.view_wf hA) (A.view_strict hA hs) e (wd := wd) (by rw [e] at hw; exact hw)
    (by rw [e] at hbn; exact hbn) (by rw [e] at hxn; exact hxn) hb hx (D := D) (fun i hi => hwd i (by rw [e]; exact hi))
  rw [e]
  exact this

end

/-! conjugated gather rows are plain gather rows on conjugated arrays -/

/-- the array `c(a[·])` -/
def Arr.mapc (c : R → R) (a : Arr R) : Arr R := ⟨a.size, fun k => c (a.get k)⟩

def Csr.mapc (c : R → R) (A : Csr R) : Csr R := { A with value := A.value.mapc c }

theorem Arr.mapc_rd (c : R → R) (a : Arr R) (k : ℕ) : (a.mapc c).rd k = (a.rd k).map c := by
  unfold Arr.rd Arr.mapc
  split <;> simp

section
variable [CommRing R] [StarRing R]

theorem solveRowH_eq (A : Csr R) (wd : Arr R) (b x i : ℕ) (h : Vecs R) :
    solveRowH star A wd b x i h = solveRow (A.mapc star) (wd.mapc star) b x i h := by
  unfold solveRowH solveRow subRowH subRow
  simp only [Csr.mapc, Arr.mapc_rd, Option.bind_eq_bind, Option.bind_map, Function.comp_def]

theorem Csr.mapc_wf {A : Csr R} (h : A.WF) : (A.mapc star).WF := ⟨h.ptr, h.isz, h.vsz, h.idx⟩

theorem Csr.mapc_entry (A : Csr R) (i j : ℕ) : (A.mapc star).entry i j = star (A.entry i j) := (star_entry A i j).symm

/-- the transposed conjugated matrix in CSR format -/
def SplitCsc.viewH (A : SplitCsc R) : SplitCsr R := ⟨A.np, A.n, A.D.mapc star, A.U.cols.mapc star, A.L.cols.mapc star⟩

theorem SplitCsc.viewH_wf {A : SplitCsc R} (h : A.WF) : A.viewH.WF :=
  have w := A.view_wf h
  ⟨w.dsz, w.le, w.ln, w.lnp, w.un, w.unp, Csr.mapc_wf w.lwf, Csr.mapc_wf w.uwf⟩

theorem SplitCsc.viewH_strict {A : SplitCsc R} (h : A.WF) (s : A.Strict) : A.viewH.Strict :=
  have w := A.view_strict h s
  ⟨w.low, w.up⟩

theorem SolvesTri.star {n : ℕ} {D : ℕ → R} {a c : ℕ → ℕ → R} {x b : ℕ → R} (hc : ∀ i j, c i j = Star.star (a j i))
    (h : SolvesTri n (fun i => Star.star (D i)) c x b) : SolvesTriH n D a x b := by
  intro i hi
  have := h i hi
  simp only [hc] at this
  exact this

/-- **C68 (CSC, LOWER, conjugate transpose).** `(D+U)ᴴ x = b`. -/
theorem solvehLowerCsc_spec {A : SplitCsc R} (hA : A.WF) (hs : A.Strict) {wd : Arr R} (hw : A.n ≤ wd.size) {b x : ℕ}
    {h : Vecs R} (hb : A.n ≤ (h b).value.size) (hx : A.n ≤ (h x).value.size) {D : ℕ → R}
    (hwd : ∀ i, i < A.n → D i * wd.get i = 1) :
    Ok (solvehLowerCsc star A wd b x h) fun h' => OnlyChanged h x A.n h' ∧
      SolvesTriH A.n D A.U.entry (h'.el x) (h.el b) := by
  have e := hA.le
  unfold solvehLowerCsc
  simp only [solveRowH_eq]
  have := solveLowerCsr_spec (A := A.viewH) (A.viewH_wf hA) (A.viewH_strict hA hs) (wd := wd.mapc star)
    (by rw [e] at hw; exact hw) (by rw [e] at hb; exact hb) (by rw [e] at hx; exact hx) (D := fun i => star (D i))
    (fun i hi => star_wd (hwd i (by rw [e]; exact hi)))
  rw [e]
  refine Ok.mono (m := loop 0 A.np h _) this ?_
  rintro h' ⟨o, s⟩
  exact ⟨o, s.star fun i j => Csr.mapc_entry _ _ _⟩

/-- **C68 (CSC, UPPER, conjugate transpose).** `(D+L)ᴴ x = b`. -/
theorem solvehUpperCsc_spec {A : SplitCsc R} (hA : A.WF) (hs : A.Strict) {wd : Arr R} (hw : A.n ≤ wd.size) {b x : ℕ}
    {h : Vecs R} (hb : A.n ≤ (h b).value.size) (hx : A.n ≤ (h x).value.size) {D : ℕ → R}
    (hwd : ∀ i, i < A.n → D i * wd.get i = 1) :
    Ok (solvehUpperCsc star A wd b x h) fun h' => OnlyChanged h x A.n h' ∧
      SolvesTriH A.n D A.L.entry (h'.el x) (h.el b) := by
  have e := hA.le
  unfold solvehUpperCsc
  simp only [solveRowH_eq]
  have := solveUpperCsr_spec (A := A.viewH) (A.viewH_wf hA) (A.viewH_strict hA hs) e (wd := wd.mapc star)
    (by rw [e] at hw; exact hw) (by rw [e] at hb; exact hb) (by rw [e] at hx; exact hx) (D := fun i => star (D i))
    (fun i hi => star_wd (hwd i (by rw [e]; exact hi)))
  rw [e]
  refine Ok.mono (m := loopDown 0 A.np h _) this ?_
  rintro h' ⟨o, s⟩
  exact ⟨o, s.star fun i j => Csr.mapc_entry _ _ _⟩

/-- for a square matrix the column test of `ssorAcc` never fires -/
theorem addRowH_eq {A : Csr R} (hA : A.WF) (hnp : A.np = A.n) {x i : ℕ} (hi : i < A.n) (h : Vecs R) :
    addRowH star A x i h = ssorAcc (A.mapc star) A.n x i h := by
  have hps := hA.ptr.size
  have his := hA.isz
  have hvs := hA.vsz
  have r1 : A.ptr.rd i = some (A.ptr.get i) := by simp only [Arr.rd]; rw [if_pos (by omega)]
  have r2 : A.ptr.rd (i + 1) = some (A.ptr.get (i + 1)) := by simp only [Arr.rd]; rw [if_pos (by omega)]
  unfold addRowH ssorAcc
  simp only [Csr.mapc, r1, r2, Option.bind_eq_bind, Option.bind_some]
  refine loop_congr fun k t _ k2 => ?_
  have hk : k < A.nnz := hA.ptr.lt_nnz hi k2
  have v1 : A.value.rd k = some (A.value.get k) := by simp only [Arr.rd]; rw [if_pos (by omega)]
  have v2 : A.index.rd k = some (A.index.get k) := by simp only [Arr.rd]; rw [if_pos (by omega)]
  have := hA.idx k hk
  simp only [v1, v2, Arr.mapc_rd, Option.bind_some, Option.map_some]
  rw [if_neg (by omega)]

/-- **C68 (CSC, SSOR, conjugate transpose).** `((D+L) D⁻¹ (D+U))ᴴ x = b`. -/
theorem solvehSsorCsc_spec {A : SplitCsc R} (hA : A.WF) (hs : A.Strict) {wd : Arr R} (hw : A.n ≤ wd.size) {b x : ℕ}
    {h : Vecs R} (hb : A.n ≤ (h b).value.size) (hx : A.n ≤ (h x).value.size) {D : ℕ → R}
    (hwd : ∀ i, i < A.n → D i * wd.get i = 1) :
    Ok (solvehSsorCsc star A wd b x h) fun h' => OnlyChanged h x A.n h' ∧
      SolvesSsorH A.n D A.L.entry A.U.entry (h'.el x) (h.el b) := by
  have e := hA.le
  have heq : solvehSsorCsc star A wd b x h = solveSsorCsr A.viewH (wd.mapc star) b x h := by
    unfold solvehSsorCsc solveSsorCsr
    simp only [solveRowH_eq]
    have hd : ∀ h1 : Vecs R, loopDown 0 A.np h1 (fun i h =>
        (addRowH star A.L.cols x i h).bind fun t => (vrd h x i).bind fun xi => (wd.rd i).bind fun w =>
          vwr h x i (xi - t * star w)) = loopDown 0 A.np h1 (fun i h =>
        (ssorAcc (A.L.cols.mapc star) A.np x i h).bind fun t => (vrd h x i).bind fun xi => ((wd.mapc star).rd i).bind fun w =>
          vwr h x i (xi - t * w)) := by
      intro h1
      unfold loopDown
      refine loop_congr fun k s _ k2 => ?_
      beta_reduce
      rw [addRowH_eq (Csc.cols_wf hA.lwf) (by show A.L.n = A.L.np; rw [hA.ln, hA.lnp, e])
        (by show _ < A.L.np; rw [hA.lnp]; omega)]
      simp only [Arr.mapc_rd, Option.bind_map, Function.comp_def]
      have q : A.L.cols.n = A.np := hA.lnp
      rw [q]
    simp only [Option.bind_eq_bind, hd]
    rfl
  have := solveSsorCsr_spec (A := A.viewH) (A.viewH_wf hA) (A.viewH_strict hA hs) (wd := wd.mapc star)
    (by rw [e] at hw; exact hw) (by rw [e] at hb; exact hb) (by rw [e] at hx; exact hx) (D := fun i => star (D i))
    (fun i hi => star_wd (hwd i (by rw [e]; exact hi)))
  rw [heq, e]
  refine this.mono ?_
  rintro h' ⟨o, y, s1, s2⟩
  exact ⟨o, y, s1.star fun i j => Csr.mapc_entry _ _ _, s2.star fun i j => Csr.mapc_entry _ _ _⟩

end

/-! ### MSR: after subtracting `n+1` from the pointers it is a CSR structure -/

theorem iter_shift {σ : Type} (s0 : ℕ) (f : ℕ → σ → Option σ) : ∀ (m a : ℕ) (s : σ),
    iter f m (s0 + a) s = iter (fun k => f (s0 + k)) m a s
  | 0, _, _ => rfl
  | m + 1, a, s => by
    simp only [iter]
    congr 1
    funext s'
    exact iter_shift s0 f m (a + 1) s'

theorem loop_shift {σ : Type} (s0 a b : ℕ) (f : ℕ → σ → Option σ) (s : σ) :
    loop (s0 + a) (s0 + b) s f = loop a b s fun k => f (s0 + k) := by
  unfold loop
  rw [show s0 + b - (s0 + a) = b - a by omega]
  exact iter_shift s0 f _ _ _

def Msr.sh (A : Msr R) : Csr R :=
  ⟨A.n, A.n, A.nnz, ⟨A.index.size, fun k => A.index.get k - (A.n + 1)⟩,
    ⟨A.index.size - (A.n + 1), fun k => A.index.get (A.n + 1 + k)⟩,
    ⟨A.value.size - (A.n + 1), fun k => A.value.get (A.n + 1 + k)⟩⟩

theorem Msr.WF.ge {A : Msr R} (h : A.WF) : ∀ {i : ℕ}, i ≤ A.n → A.n + 1 ≤ A.index.get i
  | 0, _ => by rw [h.zero]
  | i + 1, hi => le_trans (h.ge (Nat.le_of_succ_le hi)) (h.mono i hi)

theorem Msr.sh_wf {A : Msr R} (h : A.WF) : A.sh.WF := by
  have h1 := h.isz
  have h2 := h.vsz
  refine ⟨⟨by show A.n + 1 ≤ A.index.size; omega, by show A.index.get 0 - _ = 0; rw [h.zero]; omega, fun i hi => ?_, ?_⟩,
    by show A.nnz ≤ A.index.size - _; omega, by show A.nnz ≤ A.value.size - _; omega, fun k hk => ?_⟩
  · exact Nat.sub_le_sub_right (h.mono i hi) _
  · show A.index.get A.n - (A.n + 1) = A.nnz
    rw [h.last]; omega
  · have hk : k < A.nnz := hk
    exact h.idx _ (by omega) (by omega)

theorem Msr.sh_entry [AddCommMonoid R] {A : Msr R} (h : A.WF) {i : ℕ} (hi : i < A.n) (j : ℕ) : A.sh.entry i j = A.off i j := by
  unfold Csr.entry Msr.off
  have h1 := h.ge (Nat.le_of_lt hi)
  have h2 := h.ge (i := i + 1) hi
  have e := Finset.sum_Ico_add (fun k => if A.index.get k = j then A.value.get k else 0) (A.index.get i - (A.n + 1))
    (A.index.get (i + 1) - (A.n + 1)) (A.n + 1)
  rw [Nat.sub_add_cancel h1, Nat.sub_add_cancel h2] at e
  exact e

theorem sh_rd {α : Type} (a : Arr α) (s k : ℕ) : (⟨a.size - s, fun k => a.get (s + k)⟩ : Arr α).rd k = a.rd (s + k) := by
  unfold Arr.rd
  by_cases hk : s + k < a.size
  · rw [if_pos hk, if_pos (by show k < a.size - s; omega)]
  · rw [if_neg hk, if_neg (by show ¬ k < a.size - s; omega)]

/-- a loop over the stored elements of a row -/
theorem Msr.row_eq {A : Msr R} (h : A.WF) {i : ℕ} (hi : i < A.n) {σ : Type} (s : σ) (f : Arr ℕ → Arr R → ℕ → σ → Option σ)
    (hf : ∀ k, f A.index A.value (A.n + 1 + k) = f A.sh.index A.sh.value k) :
    ((A.index.rd i).bind fun a => (A.index.rd (i + 1)).bind fun b => loop a b s (f A.index A.value)) =
    (A.sh.ptr.rd i).bind fun a => (A.sh.ptr.rd (i + 1)).bind fun b => loop a b s (f A.sh.index A.sh.value) := by
  have h0 := h.isz
  have r1 : A.index.rd i = some (A.index.get i) := by simp only [Arr.rd]; rw [if_pos (by omega)]
  have r2 : A.index.rd (i + 1) = some (A.index.get (i + 1)) := by simp only [Arr.rd]; rw [if_pos (by omega)]
  have r3 : A.sh.ptr.rd i = some (A.index.get i - (A.n + 1)) := by
    exact if_pos (show i < A.index.size by omega)
  have r4 : A.sh.ptr.rd (i + 1) = some (A.index.get (i + 1) - (A.n + 1)) := by
    exact if_pos (show i + 1 < A.index.size by omega)
  rw [r1, r2, r3, r4]
  simp only [Option.bind_some]
  have h1 := h.ge (Nat.le_of_lt hi)
  have h2 := h.ge (i := i + 1) hi
  have e := loop_shift (A.n + 1) (A.index.get i - (A.n + 1)) (A.index.get (i + 1) - (A.n + 1)) (f A.index A.value) s
  rw [Nat.add_sub_cancel' h1, Nat.add_sub_cancel' h2] at e
  rw [e]
  congr 1
  funext k
  exact hf k

section
variable [CommRing R]

theorem subRow_msr {A : Msr R} (hA : A.WF) {i : ℕ} (hi : i < A.n) (x : ℕ) (h : Vecs R) (t : R) :
    subRow A.raw x i h t = subRow A.sh x i h t :=
  Msr.row_eq hA hi t (fun ix v j t => do
    let v ← v.rd j
    let c ← ix.rd j
    let xc ← vrd h x c
    pure (t - v * xc)) fun k => by
      funext t
      simp only [Msr.sh, sh_rd]

theorem solveRow_msr {A : Msr R} (hA : A.WF) {i : ℕ} (hi : i < A.n) (wd : Arr R) (b x : ℕ) (h : Vecs R) :
    solveRow A.raw wd b x i h = solveRow A.sh wd b x i h := by
  unfold solveRow
  simp only [subRow_msr hA hi]

theorem ssorAcc_msr {A : Msr R} (hA : A.WF) {i : ℕ} (hi : i < A.n) (n x : ℕ) (h : Vecs R) :
    ssorAcc A.raw n x i h = ssorAcc A.sh n x i h :=
  Msr.row_eq hA hi (0 : R) (fun ix v j t => do
    let c ← ix.rd j
    if c ≥ n then pure t else do
      let v ← v.rd j
      let xc ← vrd h x c
      pure (t + v * xc)) fun k => by
      funext t
      simp only [Msr.sh, sh_rd]

theorem scatterRowT_msr (c : R → R) {A : Msr R} (hA : A.WF) {i : ℕ} (hi : i < A.n) (x : ℕ) (t : R) (h : Vecs R) :
    scatterRowT c A.raw x i t h = scatterRowT c A.sh x i t h :=
  Msr.row_eq hA hi h (fun ix v j h => do
    let v ← v.rd j
    let k ← ix.rd j
    let xc ← vrd h x k
    vwr h x k (xc - c v * t)) fun k => by
      funext t
      simp only [Msr.sh, sh_rd]

end

/-- the parts of a split MSR matrix are strictly lower and strictly upper -/
structure SplitMsr.Strict (A : SplitMsr R) : Prop where
  low : ∀ i, i < A.n → ∀ k, A.L.index.get i ≤ k → k < A.L.index.get (i + 1) → A.L.index.get k < i
  up : ∀ i, i < A.n → ∀ k, A.U.index.get i ≤ k → k < A.U.index.get (i + 1) → i < A.U.index.get k

def SplitMsr.view (A : SplitMsr R) : SplitCsr R := ⟨A.n, A.n, A.D, A.L.sh, A.U.sh⟩

theorem SplitMsr.view_wf {A : SplitMsr R} (h : A.WF) : A.view.WF :=
  ⟨h.dsz, le_rfl, h.ln, h.ln, h.un, h.un, Msr.sh_wf h.lwf, Msr.sh_wf h.uwf⟩

theorem SplitMsr.view_strict {A : SplitMsr R} (h : A.WF) (s : A.Strict) : A.view.Strict := by
  refine ⟨fun i hi k k1 k2 => ?_, fun i hi k k1 k2 => ?_⟩
  · have hi : i < A.n := hi
    have g1 := h.lwf.ge (i := i) (by rw [h.ln]; omega)
    have g2 := h.lwf.ge (i := i + 1) (by rw [h.ln]; omega)
    change A.L.index.get i - (A.L.n + 1) ≤ k at k1
    change k < A.L.index.get (i + 1) - (A.L.n + 1) at k2
    exact s.low i hi _ (by omega) (by omega)
  · have hi : i < A.n := hi
    have g1 := h.uwf.ge (i := i) (by rw [h.un]; omega)
    have g2 := h.uwf.ge (i := i + 1) (by rw [h.un]; omega)
    change A.U.index.get i - (A.U.n + 1) ≤ k at k1
    change k < A.U.index.get (i + 1) - (A.U.n + 1) at k2
    exact s.up i hi _ (by omega) (by omega)

section
variable [CommRing R]

theorem SolvesTri.congr {n : ℕ} {D : ℕ → R} {a c : ℕ → ℕ → R} {x b : ℕ → R} (h : SolvesTri n D a x b)
    (e : ∀ i, i < n → ∀ j, a i j = c i j) : SolvesTri n D c x b := fun i hi => by
  rw [← h i hi]
  simp only [e i hi]

/-- **C68 (MSR, LOWER).** `lis_matrix_solve` returns `x` with `(D+L) x = b`. -/
theorem solveLowerMsr_spec {A : SplitMsr R} (hA : A.WF) (hs : A.Strict) {wd : Arr R} (hw : A.n ≤ wd.size) {b x : ℕ}
    {h : Vecs R} (hb : A.n ≤ (h b).value.size) (hx : A.n ≤ (h x).value.size) {D : ℕ → R}
    (hwd : ∀ i, i < A.n → D i * wd.get i = 1) :
    Ok (solveLowerMsr A wd b x h) fun h' => OnlyChanged h x A.n h' ∧
      SolvesTri A.n D A.L.off (h'.el x) (h.el b) := by
  have e : solveLowerMsr A wd b x h = solveLowerCsr A.view wd b x h :=
    loop_congr fun i h _ hi => solveRow_msr hA.lwf (by rw [hA.ln]; exact hi) wd b x h
  rw [e]
  refine (solveLowerCsr_spec (A := A.view) (A.view_wf hA) (A.view_strict hA hs) hw hb hx hwd).mono ?_
  rintro h' ⟨o, s⟩
  exact ⟨o, s.congr fun i hi j => Msr.sh_entry hA.lwf (by rw [hA.ln]; exact hi) j⟩

/-- **C68 (MSR, UPPER).** `(D+U) x = b`. -/
theorem solveUpperMsr_spec {A : SplitMsr R} (hA : A.WF) (hs : A.Strict) {wd : Arr R} (hw : A.n ≤ wd.size) {b x : ℕ}
    {h : Vecs R} (hb : A.n ≤ (h b).value.size) (hx : A.n ≤ (h x).value.size) {D : ℕ → R}
    (hwd : ∀ i, i < A.n → D i * wd.get i = 1) :
    Ok (solveUpperMsr A wd b x h) fun h' => OnlyChanged h x A.n h' ∧
      SolvesTri A.n D A.U.off (h'.el x) (h.el b) := by
  have e : solveUpperMsr A wd b x h = solveUpperCsr A.view wd b x h :=
    loop_congr fun i h _ hi => solveRow_msr hA.uwf (by rw [hA.un]; omega) wd b x h
  rw [e]
  refine (solveUpperCsr_spec (A := A.view) (A.view_wf hA) (A.view_strict hA hs) rfl hw hb hx hwd).mono ?_
  rintro h' ⟨o, s⟩
  exact ⟨o, s.congr fun i hi j => Msr.sh_entry hA.uwf (by rw [hA.un]; exact hi) j⟩

/-- **C68 (MSR, SSOR).** `(D+L) D⁻¹ (D+U) x = b`. -/
theorem solveSsorMsr_spec {A : SplitMsr R} (hA : A.WF) (hs : A.Strict) {wd : Arr R} (hw : A.n ≤ wd.size) {b x : ℕ}
    {h : Vecs R} (hb : A.n ≤ (h b).value.size) (hx : A.n ≤ (h x).value.size) {D : ℕ → R}
    (hwd : ∀ i, i < A.n → D i * wd.get i = 1) :
    Ok (solveSsorMsr A wd b x h) fun h' => OnlyChanged h x A.n h' ∧
      SolvesSsor A.n D A.L.off A.U.off (h'.el x) (h.el b) := by
  have e : solveSsorMsr A wd b x h = solveSsorCsr A.view wd b x h := by
    unfold solveSsorMsr solveSsorCsr
    have e1 : loop 0 A.n h (fun i h => solveRow A.L.raw wd b x i h) =
        loop 0 A.view.n h (fun i h => solveRow A.view.L wd b x i h) :=
      loop_congr fun i h _ hi => solveRow_msr hA.lwf (by rw [hA.ln]; exact hi) wd b x h
    rw [e1]
    congr 1
    funext h1
    refine loop_congr fun i h _ hi => ?_
    beta_reduce
    rw [ssorAcc_msr hA.uwf (by rw [hA.un]; omega)]
    rfl
  rw [e]
  refine (solveSsorCsr_spec (A := A.view) (A.view_wf hA) (A.view_strict hA hs) hw hb hx hwd).mono ?_
  rintro h' ⟨o, y, s1, s2⟩
  exact ⟨o, y, s1.congr fun i hi j => Msr.sh_entry hA.lwf (by rw [hA.ln]; exact hi) j,
    s2.congr fun i hi j => Msr.sh_entry hA.uwf (by rw [hA.un]; exact hi) j⟩

variable [StarRing R]

theorem SolvesTriH.congr {n : ℕ} {D : ℕ → R} {a c : ℕ → ℕ → R} {x b : ℕ → R} (h : SolvesTriH n D a x b)
    (e : ∀ i, i < n → ∀ j, a i j = c i j) : SolvesTriH n D c x b := fun i hi => by
  rw [← h i hi]
  congr 1
  exact sum_congr rfl fun j hj => by rw [e j (mem_range.1 hj)]

/-- **C68 (MSR, SSOR, conjugate transpose).** `((D+L) D⁻¹ (D+U))ᴴ x = b`. -/
theorem solvehSsorMsr_spec {A : SplitMsr R} (hA : A.WF) (hs : A.Strict) {wd : Arr R}
    (hw : A.n ≤ wd.size) {b x : ℕ} {h : Vecs R} (hbn : (h b).n = A.n) (hxn : (h x).n = A.n) (hb : h.WF b) (hx : h.WF x)
    {D : ℕ → R} (hwd : ∀ i, i < A.n → D i * wd.get i = 1) :
    Ok (solvehSsorMsr star A wd b x h) fun h' => OnlyChanged h x A.n h' ∧
      SolvesSsorH A.n D A.L.off A.U.off (h'.el x) (h.el b) := by
  have e : solvehSsorMsr star A wd b x h = solvehSsorCsr star A.view wd b x h := by
    unfold solvehSsorMsr solvehSsorCsr
    congr 1
    funext p
    have e1 : ∀ h1, loop 0 A.n h1 (fun i h => (vrd h x i).bind fun xi => (wd.rd i).bind fun w =>
        scatterRowT star A.U.raw x i (xi * star w) h) =
        loop 0 A.n h1 (fun i h => (vrd h x i).bind fun xi => (wd.rd i).bind fun w =>
        scatterRowT star A.U.sh x i (xi * star w) h) := fun h1 =>
      loop_congr fun i h _ hi => by
        beta_reduce
        simp only [scatterRowT_msr star hA.uwf (show i < A.U.n by rw [hA.un]; exact hi)]
    simp only [Option.bind_eq_bind, e1]
    congr 1
    funext h1
    refine loop_congr fun i h _ hi => ?_
    have : A.n - 1 - (i - 0) < A.L.n := by rw [hA.ln]; omega
    simp only [scatterRowT_msr star hA.lwf this]
    rfl
  rw [e]
  refine (solvehSsorCsr_spec (A := A.view) (A.view_wf hA) (A.view_strict hA hs) rfl hw hbn hxn hb hx hwd).mono ?_
  rintro h' ⟨o, y, s1, s2⟩
  exact ⟨o, y, s1.congr fun i hi j => Msr.sh_entry hA.uwf (by rw [hA.un]; exact hi) j,
    s2.congr fun i hi j => Msr.sh_entry hA.lwf (by rw [hA.ln]; exact hi) j⟩

end
end Lis
