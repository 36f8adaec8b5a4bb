import Verif.Spec.SolveScale
import Verif.Props.CsrScale

/-!
# C37: repeated solves with scaling
-/

namespace Lis
open Finset
variable {R : Type}

/-- the column factor of a scaling: `d_j` for the symmetric one, 1 for row scaling -/
def colFac [One R] (symm : Bool) (d : Arr R) (j : ℕ) : R := if symm then d.get j else 1

theorem matrixScale_kind [Field R] (rsq : R → R) (hr : ∀ v, v ≠ 0 → rsq v ≠ 0) {n : ℕ} {A : Csr R} (h : A.Scalable n)
    (symm : Bool) (b d : Arr R) (hb : n ≤ b.size) (hds : n ≤ d.size) :
    Ok (matrixScaleBy (·⁻¹) rsq symm A b d) fun r =>
      r.1.WF ∧ r.1.n = n ∧ r.1.np = n ∧ r.2.1.size = b.size ∧ r.2.2.size = d.size ∧
      (∀ i, i < n → r.2.2.get i ≠ 0) ∧
      (∀ i j, i < n → r.1.entry i j = A.entry i j * r.2.2.get i * colFac symm r.2.2 j) ∧
      (∀ i, i < n → r.2.1.get i = b.get i * r.2.2.get i) := by
  obtain ⟨hw, hn, hnp, hd, hnz⟩ := h
  subst hn
  unfold matrixScaleBy
  cases symm
  · rw [if_neg (by simp)]
    unfold matrixScaleJacobi
    rw [Ok_bind]
    refine (getDiagonalCsr_spec hw (fun i hi _ => hd i hi) d hds).mono ?_
    rintro d1 ⟨a1, a2, -⟩
    rw [Ok_bind]
    refine Ok_mapLoop (by omega) _ fun d2 b1 b2 => ?_
    rw [Ok_bind]
    refine (scaleCsr_spec hw d2 (by omega)).mono ?_
    rintro A' ⟨c1, c2, c3, c4⟩
    rw [Ok_bind]
    refine Ok_rhsLoop hb (by omega) fun b' e1 e2 => ?_
    rw [Ok_pure]
    refine ⟨c1, c2, by simp only; omega, e1, by simp only; omega, fun i hi => ?_, fun i j hi => ?_, e2⟩
    · rw [b2 i hi, a2 i hi]; exact inv_ne_zero (hnz i hi)
    · simp only [colFac]
      rw [c4 i j hi]; simp
  · rw [if_pos rfl]
    unfold matrixScaleSymm
    rw [Ok_bind]
    refine (getDiagonalCsr_spec hw (fun i hi _ => hd i hi) d hds).mono ?_
    rintro d1 ⟨a1, a2, -⟩
    rw [Ok_bind]
    refine Ok_mapLoop (by omega) _ fun d2 b1 b2 => ?_
    rw [Ok_bind]
    refine (scaleSymmCsr_spec hw d2 (by omega) (by omega)).mono ?_
    rintro A' ⟨c1, c2, c3, c4⟩
    rw [Ok_bind]
    refine Ok_rhsLoop hb (by omega) fun b' e1 e2 => ?_
    rw [Ok_pure]
    refine ⟨c1, c2, by simp only; omega, e1, by simp only; omega, fun i hi => ?_, fun i j hi => ?_, e2⟩
    · rw [b2 i (by omega), a2 i hi]; exact hr _ (hnz i hi)
    · simp only [colFac]
      rw [c4 i j hi]; simp

/-- the settings under which `lis_solve` scales (all of them except `-scale none` and the preconditioned stationary
solvers) -/
def ScaleSet.Scales (c : ScaleSet) : Prop :=
  c.preIS = true ∨ (c.stationary && c.precon) = false ∧ c.scale ≠ .none

/-- whether the scaling is the symmetric one -/
def ScaleSet.symm (c : ScaleSet) : Bool := !c.preIS && (c.scale = .symm || c.cg)

/-- what holds between operations -/
structure SInv [Field R] (n : ℕ) (c : ScaleSet) (s : ℕ) (S : SSys R) (I : Intent R) (B : Book) : Prop where
  iA : I.A.Scalable n
  ib : ∀ k, n ≤ (I.b k).size
  wf : S.A.WF
  hn : S.A.n = n
  hnp : S.A.np = n
  bs : ∀ k, n ≤ (S.b k).size
  ds : ∀ d, S.d s = some d → n ≤ d.size
  aMark : S.aFlag = B.aMark
  mark : ∀ k, S.bFlag k = B.mark k
  aOwn : B.aHeld = .own → S.A = I.A
  aSc : B.aHeld = .scaled → ∃ d, S.d s = some d ∧ (∀ i, i < n → d.get i ≠ 0) ∧
    ∀ i j, i < n → S.A.entry i j = I.A.entry i j * d.get i * colFac c.symm d j
  own : ∀ k, B.held k = .own → S.b k = I.b k
  sc : ∀ k, B.held k = .scaled → ∃ d, S.d s = some d ∧ ∀ i, i < n → (S.b k).get i = (I.b k).get i * d.get i

/-- the state handed to the linear solver in a proper solve -/
structure Handed [Field R] (n : ℕ) (c : ScaleSet) (s k : ℕ) (S : SSys R) (I : Intent R) (d : Arr R) : Prop where
  hn : S.A.n = n
  hnp : S.A.np = n
  hd : S.d s = some d
  hds : n ≤ d.size
  nz : ∀ i, i < n → d.get i ≠ 0
  ent : ∀ i j, i < n → S.A.entry i j = I.A.entry i j * d.get i * colFac c.symm d j
  rhs : ∀ i, i < n → (S.b k).get i = (I.b k).get i * d.get i

theorem Handed.iff [Field R] {n : ℕ} {c : ScaleSet} {s k : ℕ} {S : SSys R} {I : Intent R} {d : Arr R}
    (h : Handed n c s k S I d) (hA : I.A.Scalable n) (y : ℕ → R) :
    IsMul S.A.n S.A.np S.A.entry y (S.b k).get ↔
      IsMul I.A.n I.A.np I.A.entry (fun j => colFac c.symm d j * y j) (I.b k).get := by
  unfold IsMul
  rw [h.hn, h.hnp, hA.hn, hA.hnp]
  refine forall_congr' fun i => forall_congr' fun hi => ?_
  have : ∑ j ∈ range n, S.A.entry i j * y j =
      (∑ j ∈ range n, I.A.entry i j * (colFac c.symm d j * y j)) * d.get i := by
    rw [sum_mul]
    refine sum_congr rfl fun j _ => ?_
    rw [h.ent i j hi]; ring
  rw [this, h.rhs i hi]
  exact mul_left_inj' (h.nz i hi)

theorem IsMul.congr_left [NonUnitalNonAssocSemiring R] {n m : ℕ} {a : ℕ → ℕ → R} {x x' y : ℕ → R}
    (h : IsMul n m a x y) (hx : ∀ j, j < m → x' j = x j) : IsMul n m a x' y := fun i hi => by
  rw [h i hi]
  exact sum_congr rfl fun j hj => by rw [hx j (mem_range.1 hj)]

/-- a step that scales matrix and right-hand side -/
theorem matrixScaleFlags_step [Field R] (rsq : R → R) (hr : ∀ v, v ≠ 0 → rsq v ≠ 0) {n : ℕ} {c : ScaleSet} {s k : ℕ}
    {S : SSys R} {I : Intent R} {B : Book} (h : SInv n c s S I B) (h1 : B.aHeld = .own) (h3 : B.held k = .own)
    (h2 : B.aMark = false) (x : Arr R) {d : Arr R} (hd : n ≤ d.size) {sy : Bool} (hsy : sy = c.symm) :
    Ok (matrixScaleFlags (·⁻¹) rsq sy s k d (S.setD s d)) fun S' =>
      SInv n c s S' I (B.after (.solve k x)) ∧ ∃ d', Handed n c s k S' I d' := by
  subst hsy
  have hSA := h.aOwn h1
  have hb := h.own k h3
  unfold matrixScaleFlags
  rw [Ok_bind]
  have : (S.setD s d).A.Scalable n := by show S.A.Scalable n; rw [hSA]; exact h.iA
  refine (matrixScale_kind rsq hr this c.symm ((S.setD s d).b k) d (h.bs k) hd).mono ?_
  rintro ⟨A', b', d'⟩ ⟨c1, c2, c3, c4, c5, c6, c7, c8⟩
  rw [Ok_pure]
  simp only at *
  have e1 : ∀ i j, i < n → A'.entry i j = I.A.entry i j * d'.get i * colFac c.symm d' j := fun i j hi => by
    rw [c7 i j hi, ← hSA]; rfl
  have e2 : ∀ i, i < n → b'.get i = (I.b k).get i * d'.get i := fun i hi => by
    rw [c8 i hi, ← hb]; rfl
  have hbs := h.bs k
  refine ⟨⟨h.iA, h.ib, c1, c2, c3, fun j => ?_, fun e he => ?_, ?_, fun j => ?_, fun hh => ?_, fun _ => ?_,
    fun j hj => ?_, fun j hj => ?_⟩, d', ⟨c2, c3, ?_, by omega, c6, e1, fun i hi => ?_⟩⟩
  · simp only [SSys.setB, SSys.setBFlag, SSys.setD]
    split
    · show n ≤ b'.size; rw [c4]; exact h.bs k
    · exact h.bs j
  · simp only [SSys.setB, SSys.setBFlag, SSys.setD, if_true, Option.some.injEq] at he
    rw [← he]; omega
  · simp [Book.after, h2, SSys.setB, SSys.setBFlag, SSys.setD]
  · simp only [SSys.setB, SSys.setBFlag, SSys.setD, Book.after, h2, if_true]
    split
    · rfl
    · exact h.mark j
  · simp [Book.after, h2] at hh
  · exact ⟨d', by simp [SSys.setB, SSys.setBFlag, SSys.setD], c6, e1⟩
  · simp only [Book.after, h2, if_true] at hj
    by_cases hjk : j = k
    · rw [if_pos hjk] at hj; cases hj
    · rw [if_neg hjk] at hj
      simp only [SSys.setB, SSys.setBFlag, SSys.setD]
      rw [if_neg hjk]
      refine h.own j ?_
      by_contra hc
      rw [if_neg hc] at hj; cases hj
  · simp only [Book.after, h2, if_true] at hj
    by_cases hjk : j = k
    · subst hjk
      exact ⟨d', by simp [SSys.setB, SSys.setBFlag, SSys.setD], fun i hi => by
        simp only [SSys.setB, SSys.setBFlag, SSys.setD, if_true]; exact e2 i hi⟩
    · rw [if_neg hjk] at hj
      split at hj <;> cases hj
  · simp [SSys.setB, SSys.setBFlag, SSys.setD]
  · simp only [SSys.setB, SSys.setBFlag, SSys.setD, if_true]; exact e2 i hi

/-- a step that scales only the right-hand side -/
theorem rescaleRhs_step [Field R] {n : ℕ} {c : ScaleSet} {s k : ℕ}
    {S : SSys R} {I : Intent R} {B : Book} (h : SInv n c s S I B) (h1 : B.aHeld = .scaled) (h2 : B.aMark = true)
    (h3 : B.held k = .own) (h4 : B.mark k = false) (x : Arr R) {d : Arr R} (hd : S.d s = some d) :
    Ok (rescaleRhs k d (S.setD s d)) fun S' =>
      SInv n c s S' I (B.after (.solve k x)) ∧ ∃ d', Handed n c s k S' I d' := by
  obtain ⟨d0, g1, g2, g3⟩ := h.aSc h1
  have hds := h.ds d hd
  obtain rfl : d = d0 := by rw [hd] at g1; exact Option.some.inj g1
  have hb := h.own k h3
  have hS : S.setD s d = S := by
    unfold SSys.setD
    have : (fun j => if j = s then some d else S.d j) = S.d := by
      funext j; split
      · next hj => rw [hj, hd]
      · rfl
    rw [this]
  rw [hS]
  unfold rescaleRhs
  rw [Ok_bind]
  have hbs := h.bs k
  have hn := h.hn
  refine Ok_rhsLoop (by omega) (by omega) fun b' e1 e2 => ?_
  rw [Ok_pure]
  have e3 : ∀ i, i < n → b'.get i = (I.b k).get i * d.get i := fun i hi => by rw [e2 i (by omega), hb]
  have hB : B.after (.solve k x) = { B with held := fun j => if j = k then .scaled else B.held j } := by
    simp [Book.after, h2, h4]
  rw [hB]
  refine ⟨⟨h.iA, h.ib, h.wf, hn, h.hnp, fun j => ?_, h.ds, h.aMark, h.mark, h.aOwn, h.aSc,
    fun j hj => ?_, fun j hj => ?_⟩, d, ⟨hn, h.hnp, hd, hds, g2, g3, fun i hi => ?_⟩⟩
  · simp only [SSys.setB]
    split
    · omega
    · exact h.bs j
  · simp only at hj
    by_cases hjk : j = k
    · rw [if_pos hjk] at hj; cases hj
    · rw [if_neg hjk] at hj
      simp only [SSys.setB]
      rw [if_neg hjk]; exact h.own j hj
  · simp only at hj
    by_cases hjk : j = k
    · subst hjk
      exact ⟨d, hd, fun i hi => by simp only [SSys.setB, if_true]; exact e3 i hi⟩
    · rw [if_neg hjk] at hj
      simp only [SSys.setB]
      rw [if_neg hjk]; exact h.sc j hj
  · simp only [SSys.setB, if_true]; exact e3 i hi

/-- a step that scales nothing -/
theorem keep_step [Field R] {n : ℕ} {c : ScaleSet} {s k : ℕ}
    {S : SSys R} {I : Intent R} {B : Book} (h : SInv n c s S I B) (h1 : B.aHeld = .scaled) (h2 : B.aMark = true)
    (h3 : B.held k = .scaled) (h4 : B.mark k = true) (x : Arr R) {d : Arr R} (hd : S.d s = some d) :
    SInv n c s (S.setD s d) I (B.after (.solve k x)) ∧ ∃ d', Handed n c s k (S.setD s d) I d' := by
  obtain ⟨d0, g1, g2, g3⟩ := h.aSc h1
  obtain ⟨d1, k1, k2⟩ := h.sc k h3
  have hds := h.ds d hd
  obtain rfl : d = d0 := by rw [hd] at g1; exact Option.some.inj g1
  obtain rfl : d = d1 := by rw [hd] at k1; exact Option.some.inj k1
  have hS : S.setD s d = S := by
    unfold SSys.setD
    have : (fun j => if j = s then some d else S.d j) = S.d := by
      funext j; split
      · next hj => rw [hj, hd]
      · rfl
    rw [this]
  have hB : B.after (.solve k x) = B := by simp [Book.after, h2, h4]
  rw [hS, hB]
  exact ⟨h, d, h.hn, h.hnp, hd, hds, g2, g3, k2⟩

theorem kernelScale_step [Field R] (rsq : R → R) (hr : ∀ v, v ≠ 0 → rsq v ≠ 0) (vjunk : ℕ → R) {n : ℕ} {c : ScaleSet}
    (hc : c.Scales) {s k : ℕ} {S : SSys R} {I : Intent R} {B : Book} (h : SInv n c s S I B) (x : Arr R)
    (hp : B.Proper (.solve k x)) :
    Ok (kernelScale (·⁻¹) rsq vjunk c s k S) fun r =>
      SInv n c s r.1 I (B.after (.solve k x)) ∧ (∃ d', Handed n c s k r.1 I d') ∧
      ((r.2 = .symm ∧ c.preIS = false) ↔ c.symm = true) := by
  have hd : n ≤ ((S.d s).getD (Arr.malloc S.A.n vjunk)).size := by
    cases hS : S.d s with
    | none => exact le_of_eq h.hn.symm
    | some d => exact h.ds d hS
  have hsome : B.aHeld = .scaled → S.d s = some ((S.d s).getD (Arr.malloc S.A.n vjunk)) := fun hh => by
    obtain ⟨d, g1, -⟩ := h.aSc hh
    rw [g1]; rfl
  have hm := h.aMark
  have hbm := h.mark k
  unfold kernelScale
  generalize hdd : (S.d s).getD (Arr.malloc S.A.n vjunk) = d at *
  dsimp only
  by_cases hIS : c.preIS = true
  · have hsy : false = c.symm := by simp [ScaleSet.symm, hIS]
    have hfin : ∀ q : ScaleOpt, ((q = .symm ∧ c.preIS = false) ↔ c.symm = true) := fun q => by
      rw [← hsy]; simp [hIS]
    rw [if_pos hIS]
    rcases hp with ⟨p1, p2, p3⟩ | ⟨p1, p2, p3⟩
    · rw [if_pos (by rw [hm, p1]), Ok_bind]
      refine (matrixScaleFlags_step rsq hr h p2 p3 p1 x hd hsy).mono fun S' hS' => ?_
      rw [Ok_pure]; exact ⟨hS'.1, hS'.2, hfin _⟩
    · rw [if_neg (by rw [hm, p1]; simp)]
      rcases p3 with ⟨q1, q2⟩ | ⟨q1, q2⟩
      · rw [if_pos (by rw [hbm, q1]), Ok_bind]
        refine (rescaleRhs_step h p2 p1 q2 q1 x (hsome p2)).mono fun S' hS' => ?_
        rw [Ok_pure]; exact ⟨hS'.1, hS'.2, hfin _⟩
      · rw [if_neg (by rw [hbm, q1]; simp), Ok_pure]
        obtain ⟨a1, a2⟩ := keep_step h p2 p1 q2 q1 x (hsome p2)
        exact ⟨a1, a2, hfin _⟩
  · rcases hc with hc | ⟨hst, hsc⟩
    · exact absurd hc hIS
    have hIS' : c.preIS = false := by simpa using hIS
    rw [if_neg hIS, if_neg (by rw [hst]; simp), if_neg hsc]
    have hsy : (decide ((if c.scale = .jacobi ∧ c.cg = true then ScaleOpt.symm else c.scale) = .symm)) = c.symm := by
      unfold ScaleSet.symm
      rw [hIS']
      obtain ⟨sc, cg, _, _, _⟩ := c
      cases sc <;> cases cg <;> simp_all
    have hfin : (((if c.scale = .jacobi ∧ c.cg = true then ScaleOpt.symm else c.scale) = .symm ∧ c.preIS = false) ↔
        c.symm = true) := by
      rw [← hsy, decide_eq_true_iff]; exact and_iff_left hIS'
    rcases hp with ⟨p1, p2, p3⟩ | ⟨p1, p2, p3⟩
    · rw [if_pos (by rw [hm, p1]), Ok_bind]
      refine (matrixScaleFlags_step rsq hr h p2 p3 p1 x hd hsy).mono fun S' hS' => ?_
      rw [Ok_pure]; exact ⟨hS'.1, hS'.2, hfin⟩
    · rw [if_neg (by rw [hm, p1]; simp)]
      rcases p3 with ⟨q1, q2⟩ | ⟨q1, q2⟩
      · rw [if_pos (by rw [hbm, q1]), Ok_bind]
        refine (rescaleRhs_step h p2 p1 q2 q1 x (hsome p2)).mono fun S' hS' => ?_
        rw [Ok_pure]; exact ⟨hS'.1, hS'.2, hfin⟩
      · rw [if_neg (by rw [hbm, q1]; simp), Ok_pure]
        obtain ⟨a1, a2⟩ := keep_step h p2 p1 q2 q1 x (hsome p2)
        exact ⟨a1, a2, hfin⟩

theorem kernelUnscale_spec [MulOneClass R] (c : ScaleSet) (scale : ScaleOpt) (n : ℕ) (d xx x : Arr R) (hd : n ≤ d.size)
    (hxx : n ≤ xx.size) (hx : n ≤ x.size) (sy : Bool) (hs : (scale = .symm ∧ c.preIS = false) ↔ sy = true) :
    Ok (kernelUnscale c scale n (some d) xx x) fun x' => x'.size = x.size ∧
      (∀ i, i < n → x'.get i = xx.get i * colFac sy d i) ∧ ∀ i, n ≤ i → x'.get i = x.get i := by
  unfold kernelUnscale
  by_cases h : scale = .symm ∧ c.preIS = false
  · rw [if_pos h, Ok_bind, Ok_some]
    refine Ok_loop_fill (fun i => xx.get i * d.get i) ?_ fun y h1 h2 h3 =>
      ⟨h1, fun i hi => by rw [h2 i (by omega) hi]; simp [colFac, hs.1 h], fun i hi => h3 i (by omega)⟩
    intro i y _ hi hy _ _
    simp only [Ok_bind, Ok_rd, Ok_wr]
    exact ⟨by omega, by omega, by omega, trivial⟩
  · rw [if_neg h]
    have : sy = false := by cases sy <;> simp_all
    refine Ok_loop_fill (fun i => xx.get i) ?_ fun y h1 h2 h3 =>
      ⟨h1, fun i hi => by rw [h2 i (by omega) hi]; simp [colFac, this], fun i hi => h3 i (by omega)⟩
    intro i y _ hi hy _ _
    simp only [Ok_bind, Ok_rd, Ok_wr]
    exact ⟨by omega, by omega, trivial⟩

/-- **C37, one call.** -/
theorem solveCall_step [Field R] (rsq : R → R) (hr : ∀ v, v ≠ 0 → rsq v ≠ 0) (vjunk : ℕ → R)
    {exec : Csr R → Arr R → Arr R → Arr R} (he : SolvesAll exec) {n : ℕ} {c : ScaleSet}
    (hc : c.Scales) {s k : ℕ} {S : SSys R} {I : Intent R} {B : Book} (h : SInv n c s S I B) (x : Arr R)
    (hx : n ≤ x.size) (hp : B.Proper (.solve k x)) :
    Ok (solveCall (·⁻¹) rsq vjunk exec c s k x S) fun r => SInv n c s r.1 I (B.after (.solve k x)) ∧
      ((∃ y, IsMul I.A.n I.A.np I.A.entry y (I.b k).get) → IsMul I.A.n I.A.np I.A.entry r.2.get (I.b k).get) := by
  unfold solveCall
  rw [Ok_bind]
  refine (kernelScale_step rsq hr vjunk hc h x hp).mono ?_
  rintro ⟨S', q⟩ ⟨h1, ⟨d, h2⟩, h3⟩
  have hsz := he.size S'.A (S'.b k) x
  have hn := h2.hn
  rw [Ok_bind]
  dsimp only at *
  rw [h2.hd]
  refine (kernelUnscale_spec c q S'.A.n d _ x (by have := h2.hds; omega) hsz (by omega) c.symm h3).mono ?_
  rintro x' ⟨-, g2, -⟩
  rw [Ok_pure]
  refine ⟨h1, ?_⟩
  rintro ⟨y, hy⟩
  have hA := h.iA
  have hsol : ∃ y, IsMul S'.A.n S'.A.np S'.A.entry y (S'.b k).get := by
    refine ⟨fun j => (colFac c.symm d j)⁻¹ * y j, (h2.iff hA _).2 (hy.congr_left fun j hj => ?_)⟩
    have : colFac c.symm d j ≠ 0 := by
      unfold colFac; split
      · exact h2.nz j (by rw [← hA.hnp]; exact hj)
      · exact one_ne_zero
    field_simp
  have := (h2.iff hA _).1 (he.solves _ _ x hsol)
  refine this.congr_left fun j hj => ?_
  rw [g2 j (by rw [hn, ← hA.hnp]; exact hj), mul_comm]

theorem ScaleOp.run_step [Field R] (rsq : R → R) (hr : ∀ v, v ≠ 0 → rsq v ≠ 0) (vjunk : ℕ → R)
    {exec : Csr R → Arr R → Arr R → Arr R} (he : SolvesAll exec) {n : ℕ} {c : ScaleSet}
    (hc : c.Scales) {s : ℕ} {S : SSys R} {I : Intent R} {B : Book} (h : SInv n c s S I B) (op : ScaleOp R)
    (hg : op.Good n) (hp : B.Proper op) :
    Ok (op.run (·⁻¹) rsq vjunk exec c s S) fun r => SInv n c s r.1 (I.after op) (B.after op) ∧
      List.Forall₂ (fun (p : Csr R × Arr R) (x : Arr R) => (∃ y, IsMul p.1.n p.1.np p.1.entry y p.2.get) →
        IsMul p.1.n p.1.np p.1.entry x.get p.2.get)
        (I.asked op) (match r.2 with | some x => [x] | none => []) := by
  cases op with
  | fill k v =>
    refine ⟨_, rfl, ⟨h.iA, fun j => ?_, h.wf, h.hn, h.hnp, fun j => ?_, h.ds, h.aMark, h.mark, h.aOwn, h.aSc,
      fun j hj => ?_, fun j hj => ?_⟩, List.Forall₂.nil⟩
    · simp only [Intent.after]; split
      · exact hg
      · exact h.ib j
    · simp only [SSys.setB]; split
      · exact hg
      · exact h.bs j
    · simp only [SSys.setB, Intent.after, Book.after] at hj ⊢
      split
      · rfl
      · next hjk => rw [if_neg hjk] at hj; exact h.own j hj
    · simp only [SSys.setB, Intent.after, Book.after] at hj ⊢
      by_cases hjk : j = k
      · rw [if_pos hjk] at hj; cases hj
      · rw [if_neg hjk] at hj; simp only [if_neg hjk]; exact h.sc j hj
  | resetB k =>
    refine ⟨_, rfl, ⟨h.iA, h.ib, h.wf, h.hn, h.hnp, h.bs, h.ds, h.aMark, fun j => ?_, h.aOwn, h.aSc, h.own, h.sc⟩,
      List.Forall₂.nil⟩
    simp only [SSys.setBFlag, Book.after]
    split
    · rfl
    · exact h.mark j
  | fillA A =>
    refine ⟨_, rfl, ⟨hg, h.ib, hg.wf, hg.hn, hg.hnp, h.bs, h.ds, h.aMark, h.mark, fun _ => rfl, fun hh => ?_, h.own,
      h.sc⟩, List.Forall₂.nil⟩
    simp [Book.after] at hh
  | resetA =>
    exact ⟨_, rfl, ⟨h.iA, h.ib, h.wf, h.hn, h.hnp, h.bs, h.ds, rfl, h.mark, h.aOwn, h.aSc, h.own, h.sc⟩,
      List.Forall₂.nil⟩
  | solve k x =>
    unfold ScaleOp.run
    rw [Ok_bind]
    refine (solveCall_step rsq hr vjunk he hc h x hg hp).mono ?_
    rintro r ⟨h1, h2⟩
    rw [Ok_pure]
    exact ⟨h1, List.Forall₂.cons h2 List.Forall₂.nil⟩

theorem runHistory_inv [Field R] (rsq : R → R) (hr : ∀ v, v ≠ 0 → rsq v ≠ 0) (vjunk : ℕ → R)
    {exec : Csr R → Arr R → Arr R → Arr R} (he : SolvesAll exec) {n : ℕ} {c : ScaleSet}
    (hc : c.Scales) {s : ℕ} (ops : List (ScaleOp R)) {S : SSys R} {I : Intent R} {B : Book} (h : SInv n c s S I B)
    (hg : ∀ op ∈ ops, op.Good n) (hf : Book.Follows ops B) :
    Ok (runHistory (·⁻¹) rsq vjunk exec c s ops S) fun r =>
      List.Forall₂ (fun (p : Csr R × Arr R) (x : Arr R) => (∃ y, IsMul p.1.n p.1.np p.1.entry y p.2.get) →
        IsMul p.1.n p.1.np p.1.entry x.get p.2.get) (Intent.systems ops I) r.2 := by
  induction ops generalizing S I B with
  | nil => exact ⟨_, rfl, List.Forall₂.nil⟩
  | cons op ops ih =>
    obtain ⟨hp, hf⟩ := hf
    unfold runHistory
    rw [Ok_bind]
    refine (ScaleOp.run_step rsq hr vjunk he hc h op (hg op (by simp)) hp).mono ?_
    rintro r ⟨h1, h2⟩
    rw [Ok_bind]
    refine (ih h1 (fun op hop => hg op (by simp [hop])) hf).mono ?_
    intro q hq
    rw [Ok_pure]
    exact List.rel_append h2 hq

/-- **C37 (repeated solves).** Start with a scalable matrix and right-hand sides, nothing marked as scaled. In every
history of stores, resets and solves with one solver object in which each solve is proper (`Book.Follows`), with any
scaling option, every call runs without a memory error and returns a solution of the system the program means,
provided that system has one and the linear solver solves what it is given. -/
theorem runHistory_solves [Field R] (rsq : R → R) (hr : ∀ v, v ≠ 0 → rsq v ≠ 0) (vjunk : ℕ → R)
    {exec : Csr R → Arr R → Arr R → Arr R} (he : SolvesAll exec) {n : ℕ} {c : ScaleSet} (hc : c.Scales)
    (A : Csr R) (hA : A.Scalable n) (b : ℕ → Arr R) (hb : ∀ k, n ≤ (b k).size) (s : ℕ)
    (ops : List (ScaleOp R)) (hg : ∀ op ∈ ops, op.Good n) (hf : Book.Follows ops Book.start) :
    Ok (runHistory (·⁻¹) rsq vjunk exec c s ops ⟨A, false, b, fun _ => false, fun _ => none⟩) fun r =>
      List.Forall₂ (fun (p : Csr R × Arr R) (x : Arr R) => (∃ y, IsMul p.1.n p.1.np p.1.entry y p.2.get) →
        IsMul p.1.n p.1.np p.1.entry x.get p.2.get) (Intent.systems ops ⟨A, b⟩) r.2 :=
  runHistory_inv rsq hr vjunk he hc ops
    ⟨hA, hb, hA.wf, hA.hn, hA.hnp, hb, fun d hd => by simp at hd, rfl, fun _ => rfl, fun _ => rfl,
      fun h => by simp [Book.start] at h, fun _ _ => rfl, fun k h => by simp [Book.start] at h⟩ hg hf

end Lis
