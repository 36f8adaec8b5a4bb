import Verif.Lemmas.Matvec2
import Verif.Props.Matvec1

/-!
# C06, C07 — `lis_matvec` / `lis_matvech` for ELL, DIA, JAD
-/

namespace Lis
open Finset
variable {R : Type}

section mul
variable [NonUnitalNonAssocSemiring R]

/-- C06 ELL (unsplit) -/
theorem matvecEll_spec (A : Ell R) (h : A.WF) (x y : Arr R) (hx : A.n ≤ x.size)
    (hy : A.n ≤ y.size) :
    Ok (matvecEll A x y) fun y' => y'.size = y.size ∧
      IsMul A.n A.n A.entry x.get y'.get ∧ SameFrom A.n y.get y'.get :=
  unsplit_of_add hy fun y1 hs => ellAcc_spec A h x y1 hx (by omega)

/-- C06 ELL (split) -/
theorem matvecSplitEll_spec (A : SplitEll R) (h : A.WF) (x y : Arr R) (hx : A.n ≤ x.size)
    (hy : A.n ≤ y.size) :
    Ok (matvecSplitEll A x y) fun y' => y'.size = y.size ∧
      IsMul A.n A.n A.entry x.get y'.get ∧ SameFrom A.n y.get y'.get := by
  have e1 := h.ln; have e2 := h.un
  refine split_of_add h.dsz le_rfl hx hy (fun y1 hs => ?_) fun y1 hs => ?_
  · have := ellAcc_spec A.L h.lwf x y1 (by omega) (by omega); rwa [e1] at this
  · have := ellAcc_spec A.U h.uwf x y1 (by omega) (by omega); rwa [e2] at this

/-- C06 DIA (unsplit), any offsets -/
theorem matvecDia_spec (A : Dia R) (h : A.WF) (x y : Arr R) (hx : A.n ≤ x.size)
    (hy : A.n ≤ y.size) :
    Ok (matvecDia A x y) fun y' => y'.size = y.size ∧
      IsMul A.n A.n A.entry x.get y'.get ∧ SameFrom A.n y.get y'.get :=
  unsplit_of_add hy fun y1 hs => diaAcc_spec A h x y1 hx (by omega)

/-- C06 DIA (split) -/
theorem matvecSplitDia_spec (A : SplitDia R) (h : A.WF) (x y : Arr R) (hx : A.n ≤ x.size)
    (hy : A.n ≤ y.size) :
    Ok (matvecSplitDia A x y) fun y' => y'.size = y.size ∧
      IsMul A.n A.n A.entry x.get y'.get ∧ SameFrom A.n y.get y'.get := by
  have e1 := h.ln; have e2 := h.un
  refine split_of_add h.dsz le_rfl hx hy (fun y1 hs => ?_) fun y1 hs => ?_
  · have := diaAcc_spec A.L h.lwf x y1 (by omega) (by omega); rwa [e1] at this
  · have := diaAcc_spec A.U h.uwf x y1 (by omega) (by omega); rwa [e2] at this

/-- C06 JAD (unsplit); `w` is the matrix's work vector, whose old contents do not matter -/
theorem matvecJad_spec (A : Jad R) (h : A.WF) (w x y : Arr R) (hw : A.n ≤ w.size)
    (hx : A.np ≤ x.size) (hy : A.n ≤ y.size) :
    Ok (matvecJad A w x y) fun y' => y'.size = y.size ∧
      IsMul A.n A.np A.entry x.get y'.get ∧ SameFrom A.n y.get y'.get := by
  unfold matvecJad
  simp only [Ok_bind]
  refine Ok_zeroFill hw fun w1 hs1 hz => ?_
  refine (jadAcc_spec A h x w1 hx (by omega)).mono ?_
  rintro w2 ⟨hs2, h2⟩
  have hwv : ∀ k, k < A.n →
      w2.get k = ∑ j ∈ range A.np, A.entry (A.row.get k) j * x.get j := by
    intro k hk; rw [h2, hz, if_pos hk, zero_add, A.row_sum h _ hk]
  have := h.rsz
  refine Ok_loop_le (fun i y' => y'.size = y.size ∧
    (∀ k, k < i → y'.get (A.row.get k) = w2.get k) ∧ ∀ j, A.n ≤ j → y'.get j = y.get j)
    (Nat.zero_le _) ⟨rfl, by omega, fun _ _ => rfl⟩ ?_ ?_
  · rintro i y' _ hi ⟨hs, ha, hb⟩
    have hr := h.row i hi
    simp only [Ok_bind, Ok_rd, Ok_wr]
    refine ⟨by omega, by omega, by omega, by simpa using hs, fun k hk => ?_, fun j hj => ?_⟩
    · by_cases hki : k = i
      · subst hki; simp
      · rw [Arr.set_get_ne, ha k (by omega)]
        exact fun hh => hki (h.inj k i (by omega) hi hh)
    · rw [Arr.set_get_ne _ _ (by omega), hb j hj]
  · rintro y' ⟨hs, ha, hb⟩
    refine ⟨hs, fun i hi => ?_, hb⟩
    obtain ⟨k, hk, rfl⟩ := h.surj hi
    rw [ha k hk, hwv k hk]

/-- C06 JAD (split) -/
theorem matvecSplitJad_spec (A : SplitJad R) (h : A.WF) (w x y : Arr R) (hw : A.n ≤ w.size)
    (hx : A.np ≤ x.size) (hy : A.n ≤ y.size) :
    Ok (matvecSplitJad A w x y) fun y' => y'.size = y.size ∧
      IsMul A.n A.np A.entry x.get y'.get ∧ SameFrom A.n y.get y'.get := by
  unfold matvecSplitJad
  have e1 := h.ln; have e2 := h.un; have e3 := h.lnp; have e4 := h.unp
  have := h.le
  simp only [Ok_bind]
  refine Ok_diagInit h.dsz (by omega) hy fun y1 hys1 hyz => ?_
  refine Ok_zeroFill hw fun w1 hs1 hz1 => ?_
  refine (jadAcc_spec A.L h.lwf x w1 (by omega) (by omega)).mono ?_
  rintro w2 ⟨hs2, h2⟩
  refine (jadAddRows_spec A.L h.lwf x w2 y1 (by omega) (by omega) (fun k hk => ?_)).mono ?_
  · rw [h2, hz1, if_pos (by omega), zero_add, A.L.row_sum h.lwf _ hk]
  rintro y2 ⟨hys2, hy2⟩
  refine Ok_zeroFill (by omega) fun w3 hs3 hz3 => ?_
  refine (jadAcc_spec A.U h.uwf x w3 (by omega) (by omega)).mono ?_
  rintro w4 ⟨hs4, h4⟩
  refine (jadAddRows_spec A.U h.uwf x w4 y2 (by omega) (by omega) (fun k hk => ?_)).mono ?_
  · rw [h4, hz3, if_pos (by omega), zero_add, A.U.row_sum h.uwf _ hk]
  rintro y3 ⟨hys3, hy3⟩
  rw [e1, e3] at hy2; rw [e2, e4] at hy3
  refine ⟨by omega, fun i hi => ?_, fun i hi => ?_⟩
  · rw [hy3, hy2, hyz, if_pos hi, if_pos hi, if_pos hi]
    simp only [SplitJad.entry, add_mul, sum_add_distrib, ite_mul, zero_mul, sum_ite_eq]
    rw [if_pos (by simp; omega)]; rfl
  · rw [hy3, hy2, hyz, if_neg (by omega), if_neg (by omega), if_neg (by omega), add_zero, add_zero]
end mul

section mulH
variable [NonUnitalNonAssocSemiring R] [StarRing R]

/-- C07 ELL (unsplit) -/
theorem matvechEll_spec (A : Ell R) (h : A.WF) (x y : Arr R) (hx : A.n ≤ x.size)
    (hy : A.n ≤ y.size) :
    Ok (matvechEll A x y) fun y' => y'.size = y.size ∧
      IsMulH A.n A.n A.entry x.get y'.get ∧ SameFrom A.n y.get y'.get :=
  unsplit_of_addH hy fun y1 hs => ellAccH_spec A h x y1 hx (by omega)

/-- C07 ELL (split) -/
theorem matvechSplitEll_spec (A : SplitEll R) (h : A.WF) (x y : Arr R) (hx : A.n ≤ x.size)
    (hy : A.n ≤ y.size) :
    Ok (matvechSplitEll A x y) fun y' => y'.size = y.size ∧
      IsMulH A.n A.n A.entry x.get y'.get ∧ SameFrom A.n y.get y'.get := by
  have e1 := h.ln; have e2 := h.un
  refine split_of_addH h.dsz hx hy (fun y1 hs => ?_) fun y1 hs => ?_
  · have := ellAccH_spec A.L h.lwf x y1 (by omega) (by omega); rwa [e1] at this
  · have := ellAccH_spec A.U h.uwf x y1 (by omega) (by omega); rwa [e2] at this

/-- C07 DIA (unsplit) -/
theorem matvechDia_spec (A : Dia R) (h : A.WF) (x y : Arr R) (hx : A.n ≤ x.size)
    (hy : A.n ≤ y.size) :
    Ok (matvechDia A x y) fun y' => y'.size = y.size ∧
      IsMulH A.n A.n A.entry x.get y'.get ∧ SameFrom A.n y.get y'.get :=
  unsplit_of_addH hy fun y1 hs => diaAccH_spec A h x y1 hx (by omega)

/-- C07 DIA (split) -/
theorem matvechSplitDia_spec (A : SplitDia R) (h : A.WF) (x y : Arr R) (hx : A.n ≤ x.size)
    (hy : A.n ≤ y.size) :
    Ok (matvechSplitDia A x y) fun y' => y'.size = y.size ∧
      IsMulH A.n A.n A.entry x.get y'.get ∧ SameFrom A.n y.get y'.get := by
  unfold matvechSplitDia
  have e1 := h.ln; have e2 := h.un; have := h.dsz
  simp only [Ok_bind]
  refine Ok_zeroFill hy fun y1 hs1 hz => ?_
  refine (diaAccH_spec A.L h.lwf x y1 (by omega) (by omega)).mono ?_
  rintro y2 ⟨hs2, h2⟩
  refine Ok_loop_add (fun i j => if i = j then star (A.D.get i) * x.get i else 0) ?_ ?_
  · intro i y' _ hi hs'
    simp only [Ok_bind, Ok_rd, Ok_wr]
    exact ⟨by omega, by omega, by omega, by omega, Ok_addAt (by omega) hs'⟩
  intro y3 hs3 h3
  refine (diaAccH_spec A.U h.uwf x y3 (by omega) (by omega)).mono ?_
  rintro y4 ⟨hs4, h4⟩
  rw [e1] at h2; rw [e2] at h4
  refine ⟨by omega, fun j hj => ?_, fun j hj => ?_⟩
  · rw [h4, h3, h2, hz, if_pos hj, if_pos hj, if_pos hj, sum_Ico_zero, sum_ite_eq',
      if_pos (by simpa using hj)]
    simp only [SplitDia.entry, star_add, add_mul, sum_add_distrib, apply_ite star, star_zero,
        ite_mul, zero_mul, sum_ite_eq']
    rw [if_pos (by simpa using hj), zero_add]
    congr 1; rw [add_comm]
  · rw [h4, h3, h2, hz, if_neg (by omega), if_neg (by omega), if_neg (by omega), sum_Ico_zero,
      sum_ite_eq', if_neg (by simpa using hj), add_zero, add_zero, add_zero]

/-- C07 JAD (unsplit) -/
theorem matvechJad_spec (A : Jad R) (h : A.WF) (x y : Arr R) (hx : A.n ≤ x.size)
    (hy : A.np ≤ y.size) :
    Ok (matvechJad A x y) fun y' => y'.size = y.size ∧
      IsMulH A.n A.np A.entry x.get y'.get ∧ SameFrom A.np y.get y'.get :=
  unsplit_of_addH hy fun y1 hs => jadAccH_spec A h x y1 hx (by omega)

/-- C07 JAD (split), serial (`np = n`) -/
theorem matvechSplitJad_spec (A : SplitJad R) (h : A.WF) (hn : A.np = A.n) (x y : Arr R)
    (hx : A.n ≤ x.size) (hy : A.n ≤ y.size) :
    Ok (matvechSplitJad A x y) fun y' => y'.size = y.size ∧
      IsMulH A.n A.n A.entry x.get y'.get ∧ SameFrom A.n y.get y'.get := by
  have e1 := h.ln; have e2 := h.un; have e3 := h.lnp; have e4 := h.unp
  refine split_of_addH h.dsz hx hy (fun y1 hs => ?_) fun y1 hs => ?_
  · have := jadAccH_spec A.L h.lwf x y1 (by omega) (by omega); rwa [e1, e3, hn] at this
  · have := jadAccH_spec A.U h.uwf x y1 (by omega) (by omega); rwa [e2, e4, hn] at this
end mulH

/-! ### Non-vacuity: the matrix of `Matvec1` -/
section examples
def exEll : Ell ℤ := ⟨3, 2, .ofList [0, 1, 0, 1, 2, 2], .ofList [1, 3, 5, 2, 4, 6]⟩
def exSplitEll : SplitEll ℤ := ⟨3, .ofList [1, 3, 6], ⟨3, 1, .ofList [0, 1, 0], .ofList [0, 0, 5]⟩,
  ⟨3, 1, .ofList [1, 2, 2], .ofList [2, 4, 0]⟩⟩
def exDia : Dia ℤ := ⟨3, 3, .ofList [-2, 0, 1], .ofList [0, 0, 5, 1, 3, 6, 2, 4, 0]⟩
def exSplitDia : SplitDia ℤ := ⟨3, .ofList [1, 3, 6], ⟨3, 1, .ofList [-2], .ofList [0, 0, 5]⟩,
  ⟨3, 1, .ofList [1], .ofList [2, 4, 0]⟩⟩
def exJad : Jad ℤ := ⟨3, 3, 6, 2, .ofList [1, 0, 2], .ofList [0, 3, 6], .ofList [1, 0, 0, 2, 1, 2],
  .ofList [3, 1, 5, 4, 2, 6]⟩
def exSplitJad : SplitJad ℤ := ⟨3, 3, .ofList [1, 3, 6],
  ⟨3, 3, 1, 1, .ofList [2, 0, 1], .ofList [0, 1], .ofList [0], .ofList [5]⟩,
  ⟨3, 3, 2, 1, .ofList [0, 1, 2], .ofList [0, 2], .ofList [1, 2], .ofList [2, 4]⟩⟩

theorem exEll_wf : exEll.WF := ⟨by decide, by decide, by decide⟩
theorem exSplitEll_wf : exSplitEll.WF :=
  ⟨by decide, rfl, rfl, ⟨by decide, by decide, by decide⟩, ⟨by decide, by decide, by decide⟩⟩
theorem exDia_wf : exDia.WF := ⟨by decide, by decide⟩
theorem exSplitDia_wf : exSplitDia.WF :=
  ⟨by decide, rfl, rfl, ⟨by decide, by decide⟩, ⟨by decide, by decide⟩⟩
theorem exJad_wf : exJad.WF := ⟨⟨by decide, by decide, by decide, by decide⟩, by decide, by decide,
  by decide, by
    have : ∀ k < 3, ∀ l < 3, exJad.row.get k = exJad.row.get l → k = l := by decide
    exact fun k l a b => this k a l b, by decide, by decide, by decide⟩
theorem exSplitJad_wf : exSplitJad.WF := ⟨by decide, by decide, rfl, rfl, rfl, rfl,
  ⟨⟨by decide, by decide, by decide, by decide⟩, by decide, by decide, by decide, by
    have : ∀ k < 3, ∀ l < 3, exSplitJad.L.row.get k = exSplitJad.L.row.get l → k = l := by decide
    exact fun k l a b => this k a l b, by decide, by decide, by decide⟩,
  ⟨⟨by decide, by decide, by decide, by decide⟩, by decide, by decide, by decide, by
    have : ∀ k < 3, ∀ l < 3, exSplitJad.U.row.get k = exSplitJad.U.row.get l → k = l := by decide
    exact fun k l a b => this k a l b, by decide, by decide, by decide⟩⟩

example : (matvecEll exEll exX exY).map Arr.toList = some [21, 430, 605, 7] := by decide
example : (matvecSplitEll exSplitEll exX exY).map Arr.toList = some [21, 430, 605, 7] := by decide
example : (matvecDia exDia exX exY).map Arr.toList = some [21, 430, 605, 7] := by decide
example : (matvecSplitDia exSplitDia exX exY).map Arr.toList = some [21, 430, 605, 7] := by decide
example : (matvecJad exJad exY exX exY).map Arr.toList = some [21, 430, 605, 7] := by decide
example : (matvecSplitJad exSplitJad exY exX exY).map Arr.toList = some [21, 430, 605, 7] := by
  decide
end examples
end Lis
