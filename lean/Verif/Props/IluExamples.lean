import Verif.Props.Ilu
import Mathlib.Algebra.Field.Rat
import Mathlib.Data.Rat.Star
import Mathlib.Tactic.NormNum
import Mathlib.Tactic.IntervalCases

/-!
# C28: a concrete matrix meets the hypotheses; what happens outside them

* duplicate entries in a row overflow the work arrays of `lis_symbolic_fact_csr`;
* duplicate entries that do not overflow are overwritten instead of summed;
* the OpenMP version of `lis_psolveh_iluk_csr` forgets the conjugate of `D`.
-/

namespace Lis
open Finset

/-- `[[2,1],[1,2]]` -/
def iluA : Csr ℚ := ⟨2, 2, 4, .ofList [0, 2, 4], .ofList [0, 1, 0, 1], .ofList [2, 1, 1, 2]⟩

theorem iluA_wf : iluA.WF := by
  refine ⟨⟨by decide, by decide, by decide, by decide⟩, by decide, by decide, by decide⟩

theorem iluA_nodup : iluA.NoDup := by
  intro i hi k l
  have hi' : i < 2 := hi
  interval_cases i
  · show 0 ≤ k → k < 2 → 0 ≤ l → l < 2 → _
    intro _ hk _ hl
    interval_cases k <;> interval_cases l <;> decide
  · show 2 ≤ k → k < 4 → 2 ≤ l → l < 4 → _
    intro _ hk _ hl
    interval_cases k <;> interval_cases l <;> decide

/-- hypotheses and conclusion are met with nonzero pivots 2 and 3/2: the factorization is `[[2,1],[1,2]]` itself -/
example (junk : ℕ → ℕ) (junkIw : ℕ → Option ℕ) (junkV : ℕ → ℕ → ℚ) (junkJw : ℕ → Option ℕ) :
    Ok (createIlukCsr iluA 0 junk junkIw junkV (.ofList [7, 7]) junkJw) fun F =>
      F.D.get 0 = 1 / 2 ∧ F.D.get 1 = 2 / 3 ∧ (∀ i, i < 2 → F.D.get i ≠ 0) := by
  refine (createIlukCsr_full iluA_wf rfl iluA_nodup 0 junk junkIw junkV (junkD := .ofList [7, 7]) (by decide)
    junkJw).mono ?_
  rintro F ⟨wf, hL, hU, -, he⟩
  have a00 : iluA.entry 0 0 = 2 := by decide +kernel
  have a01 : iluA.entry 0 1 = 1 := by decide +kernel
  have a10 : iluA.entry 1 0 = 1 := by decide +kernel
  have a11 : iluA.entry 1 1 = 2 := by decide +kernel
  have d0 : F.D.get 0 = 1 / 2 := by
    have := he.d 0 (by decide)
    rw [this]
    simp only [range_zero, sum_empty, a00, sub_zero]
  have l10 : F.L.entry 1 0 = 1 / 2 := by
    have h : F.L.Has 1 0 := (hL 1 0 (by decide)).2 ⟨by decide, 0, le_refl _, .stored ⟨by decide, 2, by decide, by decide, rfl⟩⟩
    have := he.l 1 0 (by decide) h
    rw [this, d0, a10, sum_range_one]
    have : F.U.entry 0 0 = 0 := IluMat.entry_absent fun h => by
      have := (hU 0 0 (by decide)).1 h
      omega
    rw [this]; norm_num
  have u01 : F.U.entry 0 1 = 1 := by
    have h : F.U.Has 0 1 := (hU 0 1 (by decide)).2 ⟨by decide, 0, le_refl _, .stored ⟨by decide, 1, by decide, by decide, rfl⟩⟩
    have := he.u 0 1 (by decide) h
    rw [this, a01]; simp
  have d1 : F.D.get 1 = 2 / 3 := by
    have := he.d 1 (by decide)
    rw [this, sum_range_one, a11, l10, u01]; norm_num
  refine ⟨d0, d1, fun i hi => ?_⟩
  interval_cases i
  · rw [d0]; norm_num
  · rw [d1]; norm_num

/-- level of fill beyond 0: eliminating column 0 of `[[*,*,*],[*,*, ],[*, ,*]]` reaches `(1,2)` with level 1 -/
example : IluPattern (fun i j => i = 0 ∨ j = 0 ∨ i = j) 1 1 2 ∧ ¬ IluPattern (fun i j => i = 0 ∨ j = 0 ∨ i = j) 0 1 2 := by
  refine ⟨⟨1, le_refl _, .fill (k := 0) (a := 0) (b := 0) (by decide) (by decide) (.stored (by decide)) (.stored (by decide))⟩, ?_⟩
  rintro ⟨l, hl, hf⟩
  cases hf with
  | stored h => revert h; decide
  | fill => omega

/-- row 0 stores column 1 three times -/
def iluDup : Csr ℚ := ⟨2, 2, 3, .ofList [0, 3, 3], .ofList [1, 1, 1], .ofList [1, 1, 1]⟩

/-- **C28, outside the hypotheses.** `NoDup` is needed: this well-formed matrix with repeated entries makes
`lis_symbolic_fact_csr` write outside `jbuf`. -/
theorem ilu_duplicates_overflow (levfill : ℕ) (junk : ℕ → ℕ) (junkIw : ℕ → Option ℕ) :
    iluDup.WF ∧ symbolicFactCsr iluDup levfill junk junkIw = none :=
  ⟨⟨⟨by decide, by decide, by decide, by decide⟩, by decide, by decide, by decide⟩, rfl⟩

/-- `[2]` stored as `1+1` -/
def iluDup1 : Csr ℚ := ⟨1, 1, 2, .ofList [0, 2], .ofList [0, 0], .ofList [1, 1]⟩

def iluPat1 : IluPat := ⟨.ofList [0], fun _ => .ofList [], .ofList [0], fun _ => .ofList [], fun _ => .ofList []⟩

/-- **C28, outside the hypotheses.** Repeated entries are overwritten: for the `1×1` matrix 2 stored as `1+1` the stored
reciprocal pivot is 1. -/
theorem ilu_duplicates_lost : iluDup1.entry 0 0 = 2 ∧
    (numericalFactCsr iluDup1 iluPat1 (fun _ _ => 0) (.ofList [0]) (fun _ => none)).map (fun F => F.D.get 0) = some 1 := by
  constructor <;> decide +kernel

/-- `lis_psolveh_iluk_csr` compiled with OpenMP, run by one thread: `x[i] = D->value[i]*x[i]` without `conj`.
src/precon/lis_precon_iluk.c:1117-1140 -/
def psolvehIlukOmp1 {R : Type} [Mul R] [Sub R] (conj : R → R) (n : ℕ) (F : IluFact R) (b x : ℕ) (h : Vecs R) :
    Option (Vecs R) := do
  let r ← vectorCopy b x h
  let h ← loop 0 n r.2 fun i h => do
    let d ← F.D.rd i
    let xi ← vrd h x i
    let h ← vwr h x i (d * xi)
    iluScatterH conj F.U x i h
  loopDown 0 n h fun i h => iluScatterH conj F.L x i h

/-- **C28 finding.** With OpenMP and a complex pivot the conjugate-transposed ILU solve is wrong already for `n = 1`:
its result solves the conjugate-transposed system only if the pivot is real. -/
theorem psolveh_omp_no_conj {R : Type} [Field R] [StarRing R] (d : R) (hd : d ≠ 0) (hs : star d ≠ d) (v : R) (hv : v ≠ 0)
    (h : Vecs R) (hb : h 0 = ⟨1, ⟨1, fun _ => v⟩⟩) (hx : h 1 = ⟨1, ⟨1, fun _ => 0⟩⟩) :
    let F : IluFact R := ⟨⟨⟨1, fun _ => 0⟩, fun _ => ⟨0, fun _ => 0⟩, fun _ => ⟨0, fun _ => 0⟩⟩, ⟨1, fun _ => d⟩,
      ⟨⟨1, fun _ => 0⟩, fun _ => ⟨0, fun _ => 0⟩, fun _ => ⟨0, fun _ => 0⟩⟩⟩
    F.WF 1 ∧ Ok (psolvehIlukOmp1 star 1 F 0 1 h) fun h' =>
      ¬ SolvesEqH 1 (luEntry 1 F.L.entry (fun i => (F.D.get i)⁻¹) F.U.entry) (h'.el 1) (h.el 0) := by
  intro F
  refine ⟨⟨rfl, rfl, fun _ _ => rfl, fun _ _ => rfl, fun _ _ => rfl, fun _ _ => rfl, le_refl _, ?_, ?_⟩, ?_⟩
  · intro i p _ hp; exact absurd hp (Nat.not_lt_zero _)
  · intro i p _ hp; exact absurd hp (Nat.not_lt_zero _)
  · unfold psolvehIlukOmp1
    rw [Ok_bind]
    refine (vectorCopy_spec h 0 1 (by simp [Vecs.WF, hb]) (by simp [Vecs.WF, hx]) (by rw [hb, hx])).mono ?_
    rintro ⟨_, h1⟩ ⟨-, a⟩
    dsimp only at a ⊢
    have s1 : (h1 1).value.size = 1 := by rw [a.size, hx]
    have g1 : (h1 1).value.get 0 = v := by
      rw [a.get, if_pos (by rw [hx]; exact Nat.one_pos)]; simp [Vecs.el, hb]
    have step : ∀ M : IluMat R, M.nnz = ⟨1, fun _ => 0⟩ → ∀ g : Vecs R, iluScatterH star M 1 0 g = some g := by
      intro M hM g
      unfold iluScatterH
      rw [hM]; rfl
    have r1 : loop 0 1 h1 (fun i h => do
        let d ← F.D.rd i
        let xi ← vrd h 1 i
        let h ← vwr h 1 i (d * xi)
        iluScatterH star F.U 1 i h) = some (h1.upd 1 0 (d * v)) := by
      have e1 : vrd h1 1 0 = some v := by
        simp only [vrd, Arr.rd]; rw [if_pos (by omega), g1]
      have e2 : vwr h1 1 0 (d * v) = some (h1.upd 1 0 (d * v)) := by
        simp only [vwr, Arr.wr]; rw [if_pos (by omega)]; rfl
      show ((F.D.rd 0).bind fun d => (vrd h1 1 0).bind fun xi => (vwr h1 1 0 (d * xi)).bind fun h =>
        iluScatterH star F.U 1 0 h).bind (fun s => some s) = _
      rw [show F.D.rd 0 = some d from rfl, Option.bind_some, e1, Option.bind_some, e2, Option.bind_some, step _ rfl]
      rfl
    rw [Ok_bind, r1, Ok_some]
    have r2 : loopDown 0 1 (h1.upd 1 0 (d * v)) (fun i h => iluScatterH star F.L 1 i h) = some (h1.upd 1 0 (d * v)) := by
      show (iluScatterH star F.L 1 0 _).bind (fun s => some s) = _
      rw [step _ rfl]; rfl
    rw [r2, Ok_some]
    intro hsol
    have := hsol 0 (by decide)
    rw [sum_range_one] at this
    have e1 : luEntry 1 F.L.entry (fun i => (F.D.get i)⁻¹) F.U.entry 0 0 = d⁻¹ := by
      unfold luEntry
      rw [sum_range_one, if_pos rfl, if_pos rfl]
      have : F.L.entry 0 0 = 0 := rfl
      rw [this]; simp [F]
    have e2 : Vecs.el (h1.upd 1 0 (d * v)) 1 0 = d * v := by
      show ((h1.upd 1 0 (d * v)) 1).value.get 0 = _
      rw [upd_get, if_pos rfl]
    have e3 : h.el 0 0 = v := by simp [Vecs.el, hb]
    rw [e1, e2, e3] at this
    have hsd : star d ≠ 0 := by simpa using hd
    rw [star_inv₀, ← mul_assoc] at this
    have h3 : (star d)⁻¹ * d = 1 := mul_right_cancel₀ hv (by rw [this, one_mul])
    rw [inv_mul_eq_one₀ hsd] at h3
    exact hs h3

end Lis
