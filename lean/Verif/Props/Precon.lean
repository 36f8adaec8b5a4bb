import Verif.Lemmas.ArraySolver
import Verif.Spec.ArraySolver
import Verif.Props.CsrOps
import Mathlib.Tactic.FieldSimp
import Mathlib.Tactic.NormNum
import Mathlib.Tactic.Linarith
import Mathlib.Algebra.Order.Field.Rat
import Mathlib.Data.Rat.Defs
import Mathlib.Algebra.Field.Rat

/-!
# C27: the preconditioners none, Jacobi, SSOR; the reciprocal diagonals of GS, SOR
-/

namespace Lis
open Finset
variable {R : Type}

theorem recipArr_spec [One R] [Div R] {n : ℕ} {d : Arr R} (hd : n ≤ d.size) :
    Ok (recipArr n d) fun d' => d'.size = d.size ∧ (∀ i, i < n → d'.get i = 1 / d.get i) ∧ SameFrom n d.get d'.get := by
  unfold recipArr
  refine Ok_loop_fill (fun i => 1 / d.get i) ?_ ?_
  · intro i y _ hi hy h1 h2
    simp only [Ok_bind, Ok_rd, Ok_wr]
    refine ⟨by omega, by omega, ?_⟩
    rw [h1 i (by omega)]
  · intro y hy h1 h2
    exact ⟨hy, fun i hi => h1 i (by omega) hi, fun i hi => h2 i (by omega)⟩

theorem diagScale_spec [Mul R] (a : R) {n : ℕ} {d : Arr R} (hd : n ≤ d.size) :
    Ok (diagScale a n d) fun d' => d'.size = d.size ∧ (∀ i, i < n → d'.get i = a * d.get i) ∧ SameFrom n d.get d'.get := by
  unfold diagScale
  refine Ok_loop_fill (fun i => a * d.get i) ?_ ?_
  · intro i y _ hi hy h1 h2
    simp only [Ok_bind, Ok_rd, Ok_wr]
    refine ⟨by omega, by omega, ?_⟩
    rw [h1 i (by omega)]
  · intro y hy h1 h2
    exact ⟨hy, fun i hi => h1 i (by omega) hi, fun i hi => h2 i (by omega)⟩

theorem copyArr_spec {n : ℕ} {D d : Arr R} (hD : n ≤ D.size) (hd : n ≤ d.size) :
    Ok (loop 0 n d fun i wd => do
      let v ← D.rd i
      wd.wr i v) fun d' => d'.size = d.size ∧ (∀ i, i < n → d'.get i = D.get i) ∧ SameFrom n d.get d'.get := by
  refine Ok_loop_fill (fun i => D.get i) ?_ ?_
  · intro i y _ hi hy h1 h2
    simp only [Ok_bind, Ok_rd, Ok_wr]
    exact ⟨by omega, by omega, trivial⟩
  · intro y hy h1 h2
    exact ⟨hy, fun i hi => h1 i (by omega) hi, fun i hi => h2 i (by omega)⟩

/-- `A->WD` of SOR and SSOR -/
theorem makeWd_spec [One R] [Div R] [Mul R] (w : R) {n : ℕ} {D junk : Arr R} (hD : n ≤ D.size) (hj : n ≤ junk.size) :
    Ok (makeWd w n D junk) fun wd => wd.size = junk.size ∧ ∀ i, i < n → wd.get i = 1 / (w * D.get i) := by
  unfold makeWd
  simp only [Ok_bind]
  refine (copyArr_spec hD hj).mono ?_
  rintro d1 ⟨s1, g1, -⟩
  refine (diagScale_spec w (by omega)).mono ?_
  rintro d2 ⟨s2, g2, -⟩
  refine (recipArr_spec (by omega)).mono ?_
  rintro d3 ⟨s3, g3, -⟩
  exact ⟨by omega, fun i hi => by rw [g3 i hi, g2 i hi, g1 i hi]⟩

/-- `A->WD` of GS -/
theorem makeWdGs_spec [One R] [Div R] {n : ℕ} {D junk : Arr R} (hD : n ≤ D.size) (hj : n ≤ junk.size) :
    Ok (makeWdGs n D junk) fun wd => wd.size = junk.size ∧ ∀ i, i < n → wd.get i = 1 / D.get i := by
  unfold makeWdGs
  simp only [Ok_bind]
  refine (copyArr_spec hD hj).mono ?_
  rintro d1 ⟨s1, g1, -⟩
  refine (recipArr_spec (by omega)).mono ?_
  rintro d3 ⟨s3, g3, -⟩
  exact ⟨by omega, fun i hi => by rw [g3 i hi, g1 i hi]⟩

/-- `lis_precon_create_jacobi` on a CSR matrix: reciprocals of the diagonal entries -/
theorem createJacobi_spec [AddCommMonoid R] [One R] [Div R] {A : Csr R} (hA : A.WF)
    (hd : ∀ i, i < A.n → A.StoresDiag i → A.DiagOnce i) {junk : Arr R} (hj : A.n ≤ junk.size) :
    Ok (createJacobi (getDiagonalCsr A) A.n junk) fun d => d.size = junk.size ∧
      ∀ i, i < A.n → d.get i = 1 / A.entry i i := by
  unfold createJacobi
  simp only [Ok_bind]
  refine (getDiagonalCsr_spec hA hd junk hj).mono ?_
  rintro d1 ⟨s1, g1, -⟩
  refine (recipArr_spec (by omega)).mono ?_
  rintro d3 ⟨s3, g3, -⟩
  exact ⟨by omega, fun i hi => by rw [g3 i hi, g1 i hi]⟩

/-- the same for a split matrix -/
theorem createJacobiSplit_spec [AddCommMonoid R] [One R] [Div R] {A : SplitCsr R} (hA : A.WF) (hs : A.Strict)
    {junk : Arr R} (hj : A.n ≤ junk.size) :
    Ok (createJacobi (getDiagonalSplitCsr A) A.n junk) fun d => d.size = junk.size ∧
      ∀ i, i < A.n → d.get i = 1 / A.entry i i := by
  unfold createJacobi
  simp only [Ok_bind]
  refine (getDiagonalSplitCsr_spec hA hs junk hj).mono ?_
  rintro d1 ⟨s1, g1, -⟩
  refine (recipArr_spec (by omega)).mono ?_
  rintro d3 ⟨s3, g3, -⟩
  exact ⟨by omega, fun i hi => by rw [g3 i hi, g1 i hi]⟩

/-- **C27 (none).** `lis_psolve` without preconditioner copies. -/
theorem psolveNone_spec {n b x : ℕ} {h : Vecs R} (hg : h.Good n) :
    Ok (psolveNone b x h) fun h' => OnlyChanged h x n h' ∧ ∀ i, i < n → h'.el x i = h.el b i := by
  unfold psolveNone
  obtain ⟨r, hr, -, a⟩ := vectorCopy_spec h b x (hg.wf b) (hg.wf x) (by rw [(hg b).1, (hg x).1])
  rw [hr]
  refine ⟨r.2, rfl, (hg x).1 ▸ a.only, fun i hi => ?_⟩
  show (r.2 x).value.get i = _
  rw [a.get, if_pos (by rw [(hg x).1]; exact hi)]

variable [Field R]

/-- **C27 (Jacobi).** Creating the Jacobi preconditioner of a CSR matrix with nonzero diagonal and applying it solves
`D x = b`. -/
theorem jacobi_psolve_spec {A : Csr R} (hA : A.WF) (hd : ∀ i, i < A.n → A.DiagOnce i)
    (h0 : ∀ i, i < A.n → A.entry i i ≠ 0) {junk : Arr R} (hj : A.n ≤ junk.size) (b x : ℕ) {h : Vecs R} (hg : h.Good A.n) :
    Ok (do let d ← createJacobi (getDiagonalCsr A) A.n junk; psolveJacobi id A.n d b x h) fun h' =>
      OnlyChanged h x A.n h' ∧ ∀ i, i < A.n → A.entry i i * h'.el x i = h.el b i := by
  rw [Ok_bind]
  refine (createJacobi_spec hA (fun i hi _ => hd i hi) hj).mono ?_
  rintro d ⟨s, g⟩
  refine (psolveJacobi_assigned id (by omega) b x hg).mono ?_
  intro h' a
  refine ⟨(hg x).1 ▸ a.only, fun i hi => ?_⟩
  show _ * (h' x).value.get i = _
  rw [a.get, if_pos (by rw [(hg x).1]; exact hi), id, g i hi]
  have := h0 i hi
  field_simp

/-- **C27 (Jacobi, conjugate transpose).** `Dᴴ x = b` -/
theorem jacobi_psolveh_spec [StarRing R] {A : Csr R} (hA : A.WF) (hd : ∀ i, i < A.n → A.DiagOnce i)
    (h0 : ∀ i, i < A.n → A.entry i i ≠ 0) {junk : Arr R} (hj : A.n ≤ junk.size) (b x : ℕ) {h : Vecs R} (hg : h.Good A.n) :
    Ok (do let d ← createJacobi (getDiagonalCsr A) A.n junk; psolveJacobi star A.n d b x h) fun h' =>
      OnlyChanged h x A.n h' ∧ ∀ i, i < A.n → star (A.entry i i) * h'.el x i = h.el b i := by
  rw [Ok_bind]
  refine (createJacobi_spec hA (fun i hi _ => hd i hi) hj).mono ?_
  rintro d ⟨s, g⟩
  refine (psolveJacobi_assigned star (by omega) b x hg).mono ?_
  intro h' a
  refine ⟨(hg x).1 ▸ a.only, fun i hi => ?_⟩
  show _ * (h' x).value.get i = _
  rw [a.get, if_pos (by rw [(hg x).1]; exact hi), g i hi, mul_comm (h.el b i), ← mul_assoc]
  have : A.entry i i * (1 / A.entry i i) = 1 := by have := h0 i hi; field_simp
  rw [star_wd this, one_mul]

/-- **C27 (SSOR, as coded).** Creating the SSOR preconditioner with `omega = w` and applying it returns `x` with
`(wD+L)(wD)⁻¹(wD+U) x = b`. -/
theorem ssor_psolve_spec {A : SplitCsr R} (hA : A.WF) (hs : A.Strict) (w : R)
    (h0 : ∀ i, i < A.n → w * A.D.get i ≠ 0) {junk : Arr R} (hj : A.n ≤ junk.size) (b x : ℕ) {h : Vecs R}
    (hg : h.Good A.n) :
    Ok (do let wd ← makeWd w A.n A.D junk; solveSsorCsr A wd b x h) fun h' =>
      OnlyChanged h x A.n h' ∧
      SolvesSsor A.n (fun i => w * A.D.get i) A.L.entry A.U.entry (h'.el x) (h.el b) := by
  rw [Ok_bind]
  have := hA.dsz
  refine (makeWd_spec w (by omega) hj).mono ?_
  rintro wd ⟨s, g⟩
  refine solveSsorCsr_spec hA hs (by omega) (hg b).2 (hg x).2 (fun i hi => ?_)
  rw [g i hi, mul_one_div_cancel (h0 i hi)]

/-- **C27 (SSOR, conjugate transpose, as coded).** -/
theorem ssor_psolveh_spec [StarRing R] {A : SplitCsr R} (hA : A.WF) (hs : A.Strict) (hnp : A.np = A.n) (w : R)
    (h0 : ∀ i, i < A.n → w * A.D.get i ≠ 0) {junk : Arr R} (hj : A.n ≤ junk.size) (b x : ℕ) {h : Vecs R}
    (hg : h.Good A.n) :
    Ok (do let wd ← makeWd w A.n A.D junk; solvehSsorCsr star A wd b x h) fun h' =>
      OnlyChanged h x A.n h' ∧
      SolvesSsorH A.n (fun i => w * A.D.get i) A.L.entry A.U.entry (h'.el x) (h.el b) := by
  rw [Ok_bind]
  have := hA.dsz
  refine (makeWd_spec w (by omega) hj).mono ?_
  rintro wd ⟨s, g⟩
  refine solvehSsorCsr_spec hA hs hnp (by omega) (hg b).1 (hg x).1 (hg.wf b) (hg.wf x) (fun i hi => ?_)
  rw [g i hi, mul_one_div_cancel (h0 i hi)]

/-- With the default `omega = 1` this is the documented `M = (D/w+L)(D/w)⁻¹(D/w+U)`. -/
theorem ssor_psolve_default {A : SplitCsr R} (hA : A.WF) (hs : A.Strict)
    (h0 : ∀ i, i < A.n → A.D.get i ≠ 0) {junk : Arr R} (hj : A.n ≤ junk.size) (b x : ℕ) {h : Vecs R}
    (hg : h.Good A.n) :
    Ok (do let wd ← makeWd (1 : R) A.n A.D junk; solveSsorCsr A wd b x h) fun h' =>
      OnlyChanged h x A.n h' ∧
      SolvesSsor A.n (fun i => A.D.get i / 1) A.L.entry A.U.entry (h'.el x) (h.el b) := by
  refine (ssor_psolve_spec hA hs 1 (fun i hi => by rw [one_mul]; exact h0 i hi) hj b x hg).mono ?_
  rintro h' ⟨h1, h2⟩
  refine ⟨h1, ?_⟩
  simpa [div_one] using h2

/-- With `omega = 2` and the 1x1 matrix `(1)` the SSOR preconditioner returns `x = b/2`; the documented
`M = (D/w+L)(I+w D⁻¹U) = 1/2` would give `x = 2b`. -/
theorem ssor_not_documented :
    ∃ (A : SplitCsr ℚ) (h : Vecs ℚ), A.WF ∧ A.Strict ∧ h.Good A.n ∧
      Ok (do let wd ← makeWd (2 : ℚ) A.n A.D (Arr.malloc 1 fun _ => 0); solveSsorCsr A wd 0 1 h) fun h' =>
        ¬ SolvesSsor A.n (fun i => A.D.get i / 2) A.L.entry A.U.entry (h'.el 1) (h.el 0) := by
  let E : Csr ℚ := ⟨1, 1, 0, ⟨2, fun _ => 0⟩, ⟨0, fun _ => 0⟩, ⟨0, fun _ => 0⟩⟩
  have hE : E.WF := by
    refine ⟨⟨?_, ?_, ?_, ?_⟩, ?_, ?_, ?_⟩ <;> simp [E]
  let A : SplitCsr ℚ := ⟨1, 1, ⟨1, fun _ => 1⟩, E, E⟩
  let h : Vecs ℚ := fun _ => ⟨1, ⟨1, fun _ => 1⟩⟩
  have hA : A.WF := by exact ⟨le_rfl, le_rfl, rfl, rfl, rfl, rfl, hE, hE⟩
  have hs : A.Strict := by refine ⟨?_, ?_⟩ <;> simp [A, E]
  have hg : h.Good A.n := fun v => ⟨rfl, le_rfl⟩
  refine ⟨A, h, hA, hs, hg, ?_⟩
  have hent : ∀ i j, E.entry i j = 0 := fun i j => by simp [E, Csr.entry]
  have hL : A.L.entry = fun _ _ => 0 := by funext i j; exact hent i j
  have hU : A.U.entry = fun _ _ => 0 := by funext i j; exact hent i j
  have hb : h.el 0 0 = 1 := rfl
  have hD : A.D.get 0 = 1 := rfl
  refine (ssor_psolve_spec hA hs 2 (fun i hi => by simp [A]) (junk := Arr.malloc 1 fun _ => 0) le_rfl 0 1 hg).mono ?_
  rintro h' ⟨-, y, h1, h2⟩ ⟨z, h3, h4⟩
  have e1 := h1 0 (by decide)
  have e2 := h2 0 (by decide)
  have e3 := h3 0 (by decide)
  have e4 := h4 0 (by decide)
  simp only [hL, hU, hb, hD, zero_mul, Finset.sum_const_zero, add_zero] at e1 e2 e3 e4
  linarith

section
variable {R : Type} [One R] [Div R] [Mul R]
/-- first use: the reciprocals of `w D` -/
theorem ensureWdSor_first (w : R) {n : ℕ} {D : Arr R} {s : WdSt R} (hs : s.use ≠ .sor) (hD : n ≤ D.size)
    (hj : n ≤ s.wd.size) :
    Ok (ensureWdSor w n D s) fun s' => s'.use = .sor ∧ s'.wd.size = s.wd.size ∧
      ∀ i, i < n → s'.wd.get i = 1 / (w * D.get i) := by
  unfold ensureWdSor
  rw [if_pos hs, Ok_bind]
  refine (makeWd_spec w hD hj).mono ?_
  rintro wd ⟨h1, h2⟩
  rw [Ok_pure]
  exact ⟨rfl, h1, h2⟩

/-- Later uses: `A->WD` keeps the old `omega` and the old diagonal, whatever the new ones are.  (The SOR solver run after
the SSOR preconditioner, or with another `omega`, or after the matrix values changed, works with a stale diagonal.) -/
theorem ensureWdSor_stale (w w' : R) {n : ℕ} {D D' : Arr R} {s : WdSt R} (hs : s.use ≠ .sor) (hD : n ≤ D.size)
    (hj : n ≤ s.wd.size) :
    Ok (do let s1 ← ensureWdSor w n D s; ensureWdSor w' n D' s1) fun s' =>
      ∀ i, i < n → s'.wd.get i = 1 / (w * D.get i) := by
  rw [Ok_bind]
  refine (ensureWdSor_first w hs hD hj).mono ?_
  rintro s1 ⟨h1, h2, h3⟩
  unfold ensureWdSor
  rw [if_neg (by simp [h1]), Ok_some]
  exact h3

theorem ensureWdGs_first {n : ℕ} {D : Arr R} {s : WdSt R} (hs : s.use ≠ .gs) (hD : n ≤ D.size)
    (hj : n ≤ s.wd.size) :
    Ok (ensureWdGs n D s) fun s' => s'.use = .gs ∧ s'.wd.size = s.wd.size ∧
      ∀ i, i < n → s'.wd.get i = 1 / D.get i := by
  unfold ensureWdGs
  rw [if_pos hs, Ok_bind]
  refine (makeWdGs_spec hD hj).mono ?_
  rintro wd ⟨h1, h2⟩
  rw [Ok_pure]
  exact ⟨rfl, h1, h2⟩
end

end Lis
