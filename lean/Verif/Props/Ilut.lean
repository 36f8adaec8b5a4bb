import Verif.Lemmas.Ilut3
import Verif.Spec.Ilut
import Verif.Props.IluExamples
import Mathlib.Algebra.Field.Rat
import Mathlib.Algebra.Order.Ring.Rat
import Mathlib.Tactic.NormNum
import Mathlib.Tactic.IntervalCases

/-!
# C56: the ILUT preconditioner
-/

namespace Lis
open Finset
variable {R : Type}

section field
variable [Field R] [LinearOrder R] [IsStrictOrderedRing R]

/-- **C56 (factorization).** Creating the ILUT preconditioner of a square CSR matrix without duplicate entries never leaves its
buffers, whatever the work arrays contain; the factors can be walked, no row of them has more than `lfil` elements, and every row satisfies
`IlutRow`: exact elimination up to an error below `i * tol * (mean magnitude of row i)` outside the pattern of `A`, of which the
elements **smallest** in magnitude are stored. -/
theorem createIlutCsr_spec {A : Csr R} (hA : A.WF) (hnp : A.np = A.n) (hnd : A.NoDup) {tol : R} (htol : 0 ≤ tol) (lfil : ℕ)
    (junkI : ℕ → ℕ) (junkV : ℕ → R) (junkW : ℕ → ℤ) {junkD : Arr R} (hD : A.n ≤ junkD.size) :
    Ok (createIlutCsr junkI junkV junkW A tol lfil junkD) fun F => F.WF A.n ∧
      (∀ i, i < A.n → F.L.nnz.get i ≤ lfil ∧ F.U.nnz.get i ≤ lfil) ∧
      ∀ i, i < A.n → ∃ l u e, IlutRow A tol lfil F i l u e := by
  refine (createIlut_rows hA hnp hnd htol lfil junkI junkV junkW hD).mono ?_
  rintro F ⟨h1, h2⟩
  refine ⟨h1, fun i hi => ?_, h2⟩
  obtain ⟨l, u, e, r⟩ := h2 i hi
  exact ⟨r.keepL.le, r.keepU.le⟩

/-- a row stored below the limit is stored completely -/
theorem KeepsSmallest.entry_eq {lfil : ℕ} {x : ℕ → R} {M : IluMat R} {i : ℕ} (h : KeepsSmallest lfil x M i)
    (hl : M.nnz.get i < lfil) (c : ℕ) : M.entry i c = x c := by
  by_cases hc : M.Has i c
  · obtain ⟨t, t1, t2⟩ := hc
    unfold IluMat.entry
    rw [sum_eq_single t]
    · rw [if_pos t2, h.val t t1, t2]
    · intro u hu hne
      exact if_neg fun he => hne (h.inj u t (mem_range.1 hu) t1 (by rw [he, t2]))
    · intro hn; exact absurd (mem_range.2 t1) hn
  · rw [IluMat.entry_absent hc]
    by_contra hne
    have := (h.small c hc (Ne.symm hne)).1
    omega

theorem IluFact.WF.nnz_lt {n : ℕ} {F : IluFact R} (hF : F.WF n) {i : ℕ} (hi : i < n)
    (jL : ∀ t u, t < F.L.nnz.get i → u < F.L.nnz.get i → (F.L.index i).get t = (F.L.index i).get u → t = u)
    (jU : ∀ t u, t < F.U.nnz.get i → u < F.U.nnz.get i → (F.U.index i).get t = (F.U.index i).get u → t = u) :
    F.L.nnz.get i < n ∧ F.U.nnz.get i < n := by
  constructor
  · refine Listed.room (il := F.L.index i) (c := i) hi (fun k hk => ?_) jL ?_
    · have := hF.low i k hi hk; omega
    · rintro ⟨k, hk, he⟩
      have := hF.low i k hi hk; omega
  · refine Listed.room (il := F.U.index i) (c := i) hi (fun k hk => (hF.up i k hi hk).2) jU ?_
    rintro ⟨k, hk, he⟩
    have := (hF.up i k hi hk).1; omega

/-- **C56 (without truncation).** If `lfil` is at least the order and no pivot vanishes, the product of the factors differs from `A` by
at most `i * tol * (mean magnitude of row i)` in row `i`, and not at all on the diagonal and where `A` has an element. -/
theorem ilut_error {A : Csr R} (hA : A.WF) (hnp : A.np = A.n) (hnd : A.NoDup) {tol : R} (htol : 0 ≤ tol) {lfil : ℕ} (hl : A.n ≤ lfil)
    (junkI : ℕ → ℕ) (junkV : ℕ → R) (junkW : ℕ → ℤ) {junkD : Arr R} (hD : A.n ≤ junkD.size) :
    Ok (createIlutCsr junkI junkV junkW A tol lfil junkD) fun F => F.WF A.n ∧ ((∀ i, i < A.n → F.D.get i ≠ 0) →
      ∀ i c, i < A.n → c < A.n →
        |A.entry i c - luEntry A.n F.L.entry (fun i => (F.D.get i)⁻¹) F.U.entry i c| ≤ i * (tol * rowMean A i) ∧
        (c = i ∨ A.Stored i c → luEntry A.n F.L.entry (fun i => (F.D.get i)⁻¹) F.U.entry i c = A.entry i c)) := by
  refine (createIlut_rows hA hnp hnd htol lfil junkI junkV junkW hD).mono ?_
  rintro F ⟨wf, hr⟩
  refine ⟨wf, fun hd i c hi hc => ?_⟩
  obtain ⟨l, u, e, r⟩ := hr i hi
  obtain ⟨n1, n2⟩ := wf.nnz_lt hi r.keepL.inj r.keepU.inj
  have hL := r.keepL.entry_eq (by omega)
  have hU := r.keepU.entry_eq (by omega)
  have key : A.entry i c - luEntry A.n F.L.entry (fun i => (F.D.get i)⁻¹) F.U.entry i c = e c := by
    rw [r.elim (fun k hk => hd k (by omega)) c hc]
    unfold luEntry
    simp only [add_mul, sum_add_distrib, ite_mul, one_mul, zero_mul]
    rw [sum_ite_eq, if_pos (mem_range.2 hi), hU c]
    have : ∑ k ∈ range A.n, F.L.entry i k * ((if k = c then (F.D.get k)⁻¹ else 0) + F.U.entry k c) =
        ∑ k ∈ range i, l k * ((if k = c then (F.D.get k)⁻¹ else 0) + F.U.entry k c) := by
      rw [← sum_subset (range_subset_range.2 hi.le)]
      · exact sum_congr rfl fun k _ => by rw [hL]
      · intro k _ hk
        rw [hL, show l k = 0 by by_contra hn; exact hk (mem_range.2 (r.low k hn)), zero_mul]
    rw [this]
    by_cases ec : i = c
    · rw [if_pos ec, if_pos ec.symm]; ring
    · rw [if_neg ec, if_neg (Ne.symm ec)]; ring
  refine ⟨key ▸ r.err c, fun h => ?_⟩
  have : e c = 0 := by
    by_contra hne
    obtain ⟨h1, h2⟩ := r.fill c hne
    rcases h with h | h
    · exact h1 h
    · exact h2 h
  rw [this] at key
  exact (sub_eq_zero.1 key).symm

/-- **C56 (direct solver).** With `tol = 0`, `lfil` at least the order and nonzero pivots, creating and applying the preconditioner
solves `A z = r`. -/
theorem ilut_direct {A : Csr R} (hA : A.WF) (hnp : A.np = A.n) (hnd : A.NoDup) {lfil : ℕ} (hl : A.n ≤ lfil)
    (junkI : ℕ → ℕ) (junkV : ℕ → R) (junkW : ℕ → ℤ) {junkD : Arr R} (hD : A.n ≤ junkD.size) :
    Ok (createIlutCsr junkI junkV junkW A 0 lfil junkD) fun F => (∀ i, i < A.n → F.D.get i ≠ 0) → ∀ b x (h : Vecs R), h.Good A.n →
      Ok (psolveIlut A.n F b x h) fun h' => OnlyChanged h x A.n h' ∧ SolvesEq A.n A.entry (h'.el x) (h.el b) := by
  refine (ilut_error hA hnp hnd (le_refl _) hl junkI junkV junkW hD).mono ?_
  rintro F ⟨wf, he⟩ hd b x h hg
  refine (psolveIluk_spec wf hd b x hg).mono ?_
  rintro h' ⟨o, hs⟩
  refine ⟨o, fun i hi => ?_⟩
  rw [← hs i hi]
  refine sum_congr rfl fun j hj => ?_
  have := (he hd i j hi (mem_range.1 hj)).1
  rw [zero_mul, mul_zero] at this
  rw [sub_eq_zero.1 (abs_nonpos_iff.1 this)]

/-- **C56 (psolve).** Applying the preconditioner solves with the product of the stored factors. -/
theorem psolveIlut_spec {n : ℕ} {F : IluFact R} (hF : F.WF n) (hd : ∀ i, i < n → F.D.get i ≠ 0) (b x : ℕ)
    {h : Vecs R} (hg : h.Good n) :
    Ok (psolveIlut n F b x h) fun h' => OnlyChanged h x n h' ∧
      SolvesEq n (luEntry n F.L.entry (fun i => (F.D.get i)⁻¹) F.U.entry) (h'.el x) (h.el b) :=
  psolveIluk_spec hF hd b x hg

end field

/-- **C56 (psolveh).** Applying the conjugate transpose: because `D` is used without conjugation, the solve is with
`((I+L)(conj(D̂)+U))ᴴ`; that is the conjugate transpose of the preconditioner only when the pivots are real. -/
theorem psolvehIlut_spec [Field R] [StarRing R] {n : ℕ} {F : IluFact R} (hF : F.WF n) (hd : ∀ i, i < n → F.D.get i ≠ 0) (b x : ℕ)
    {h : Vecs R} (hg : h.Good n) :
    Ok (psolvehIlut star n F b x h) fun h' => OnlyChanged h x n h' ∧
      SolvesEqH n (luEntry n F.L.entry (fun i => (star (F.D.get i))⁻¹) F.U.entry) (h'.el x) (h.el b) := by
  have e : psolvehIlut star n F b x h = psolvehIluk star n ⟨F.L, ⟨F.D.size, fun i => star (F.D.get i)⟩, F.U⟩ b x h := by
    unfold psolvehIlut psolvehIluk Arr.rd
    simp only [star_star]
    congr 1
    funext r
    congr 1
    congr 1
    funext i h
    by_cases hc : i < F.D.size
    · rw [if_pos hc, if_pos hc]
      show _ = (some (star (F.D.get i)) >>= _)
      simp only [Option.bind_eq_bind, Option.bind_some, star_star]
    · rw [if_neg hc, if_neg hc]; rfl
  rw [e]
  exact psolvehIluk_spec (F := ⟨F.L, ⟨F.D.size, fun i => star (F.D.get i)⟩, F.U⟩)
    ⟨hF.nl, hF.nu, hF.il, hF.iu, hF.vl, hF.vu, hF.d, hF.low, hF.up⟩ (fun i hi => by simpa using hd i hi) b x hg

/-! ### witnesses -/

/-- `[[10,9,1],[0,1,0],[0,0,1]]` -/
def ilutA : Csr ℚ := ⟨3, 3, 5, .ofList [0, 3, 4, 5], .ofList [0, 1, 2, 1, 2], .ofList [10, 9, 1, 1, 1]⟩

theorem ilutA_wf : ilutA.WF := by
  refine ⟨⟨by decide, by decide, by decide, by decide⟩, by decide, by decide, by decide⟩

theorem ilutA_nodup : ilutA.NoDup := by
  intro i hi k l
  have hi' : i < 3 := hi
  interval_cases i
  · show 0 ≤ k → k < 3 → 0 ≤ l → l < 3 → _
    intro _ hk _ hl
    interval_cases k <;> interval_cases l <;> decide
  · show 3 ≤ k → k < 4 → 3 ≤ l → l < 4 → _
    intro _ hk _ hl
    interval_cases k <;> interval_cases l <;> decide
  · show 4 ≤ k → k < 5 → 4 ≤ l → l < 5 → _
    intro _ hk _ hl
    interval_cases k <;> interval_cases l <;> decide

/-- **C56 (finding).** `lis_sort_di` sorts in increasing order and the first `lfil` elements are kept: of the row `(10, 9, 1)` with
`lfil = 1`, element `1` is stored and element `9` thrown away (a truncation meant to keep the largest elements does the opposite). -/
theorem ilut_keeps_the_smallest (junkI : ℕ → ℕ) (junkV : ℕ → ℚ) (junkW : ℕ → ℤ) :
    Ok (createIlutCsr junkI junkV junkW ilutA 0 1 (.ofList [7, 7, 7])) fun F =>
      F.D.get 0 = 1 / 10 ∧ F.U.entry 0 1 = 0 ∧ F.U.entry 0 2 = 1 ∧ ilutA.entry 0 1 = 9 := by
  refine (createIlutCsr_spec ilutA_wf rfl ilutA_nodup (le_refl _) 1 junkI junkV junkW (junkD := .ofList [7, 7, 7]) (by decide)).mono ?_
  rintro F ⟨wf, -, hr⟩
  obtain ⟨l, u, e, r⟩ := hr 0 (by decide)
  have a0 : ilutA.entry 0 0 = 10 := by decide +kernel
  have a1 : ilutA.entry 0 1 = 9 := by decide +kernel
  have a2 : ilutA.entry 0 2 = 1 := by decide +kernel
  have he : ∀ c, e c = 0 := fun c => by
    have := r.err c
    rw [Nat.cast_zero, zero_mul] at this
    exact abs_nonpos_iff.1 this
  have el := r.elim (fun k hk => by omega)
  have u0 : u 0 = 0 := by
    by_contra hne
    have := (r.up 0 hne).1
    omega
  have d0 : (F.D.get 0)⁻¹ = 10 := by
    have := el 0 (by decide)
    rw [a0, he, u0, range_zero, sum_empty, if_pos rfl] at this
    linarith
  have u1 : u 1 = 9 := by
    have := el 1 (by decide)
    rw [a1, he, range_zero, sum_empty, if_neg (by decide)] at this
    linarith
  have u2 : u 2 = 1 := by
    have := el 2 (by decide)
    rw [a2, he, range_zero, sum_empty, if_neg (by decide)] at this
    linarith
  have k := r.keepU
  have hno : ¬ F.U.Has 0 1 := by
    rintro ⟨t, t1, t2⟩
    have hle := k.le
    have h2 : ¬ F.U.Has 0 2 := by
      rintro ⟨t', t1', t2'⟩
      have : t = t' := by omega
      rw [this] at t2
      omega
    have := (k.small 2 h2 (by rw [u2]; norm_num)).2 t t1
    rw [k.val t t1, t2, u1, u2] at this
    norm_num at this
  have hnz := (k.small 1 hno (by rw [u1]; norm_num)).1
  have hix : (F.U.index 0).get 0 = 2 := by
    have h1 := wf.up 0 0 (by decide) (by omega)
    have h2 : (F.U.index 0).get 0 ≠ 1 := fun h => hno ⟨0, by omega, h⟩
    have h3 : (F.U.index 0).get 0 < 3 := h1.2
    omega
  refine ⟨by rw [← inv_inv (F.D.get 0), d0]; norm_num, IluMat.entry_absent hno, ?_, a1⟩
  unfold IluMat.entry
  rw [hnz, sum_range_one, if_pos hix, k.val 0 (by omega), hix, u2]

/-- hypotheses of the theorems are met by `[[2,1],[1,2]]`, with nonzero pivots 2 and 3/2 -/
example (junkI : ℕ → ℕ) (junkV : ℕ → ℚ) (junkW : ℕ → ℤ) :
    Ok (createIlutCsr junkI junkV junkW iluA 0 2 (.ofList [7, 7])) fun F =>
      (∀ i, i < iluA.n → F.D.get i ≠ 0) ∧ F.D.get 0 = 1 / 2 ∧ F.D.get 1 = 2 / 3 ∧ F.L.entry 1 0 = 1 / 2 ∧ F.U.entry 0 1 = 1 := by
  refine (createIlutCsr_spec iluA_wf rfl iluA_nodup (le_refl _) 2 junkI junkV junkW (junkD := .ofList [7, 7]) (by decide)).mono ?_
  rintro F ⟨wf, -, hr⟩
  obtain ⟨l, u, e, r⟩ := hr 0 (by decide)
  obtain ⟨l', u', e', r'⟩ := hr 1 (by decide)
  have a0 : iluA.entry 0 0 = 2 := by decide +kernel
  have a1 : iluA.entry 0 1 = 1 := by decide +kernel
  have b0 : iluA.entry 1 0 = 1 := by decide +kernel
  have b1 : iluA.entry 1 1 = 2 := by decide +kernel
  have he : ∀ c, e c = 0 := fun c => by
    have := r.err c
    rw [Nat.cast_zero, zero_mul] at this
    exact abs_nonpos_iff.1 this
  have he' : ∀ c, e' c = 0 := fun c => by
    have := r'.err c
    rw [zero_mul, mul_zero] at this
    exact abs_nonpos_iff.1 this
  have el := r.elim (fun k hk => by omega)
  have u0 : u 0 = 0 := by
    by_contra hne
    have := (r.up 0 hne).1
    omega
  have u0' : u' 0 = 0 := by
    by_contra hne
    have := (r'.up 0 hne).1
    omega
  have u1' : u' 1 = 0 := by
    by_contra hne
    have := (r'.up 1 hne).1
    omega
  have d0 : (F.D.get 0)⁻¹ = 2 := by
    have := el 0 (by decide)
    rw [a0, he, u0, range_zero, sum_empty, if_pos rfl] at this
    linarith
  have d0' : F.D.get 0 = 1 / 2 := by rw [← inv_inv (F.D.get 0), d0]; norm_num
  have u1 : u 1 = 1 := by
    have := el 1 (by decide)
    rw [a1, he, range_zero, sum_empty, if_neg (by decide)] at this
    linarith
  obtain ⟨n1, n2⟩ := wf.nnz_lt (i := 0) (by decide) r.keepL.inj r.keepU.inj
  obtain ⟨m1, m2⟩ := wf.nnz_lt (i := 1) (by decide) r'.keepL.inj r'.keepU.inj
  have U01 : F.U.entry 0 1 = 1 := by rw [r.keepU.entry_eq n2, u1]
  have U00 : F.U.entry 0 0 = 0 := by rw [r.keepU.entry_eq n2, u0]
  have el' := r'.elim (fun k hk => by rw [show k = 0 by omega, d0']; norm_num)
  have l0 : l' 0 = 1 / 2 := by
    have := el' 0 (by decide)
    rw [b0, he', u0', sum_range_one, if_pos rfl, if_neg (by decide), d0, U00] at this
    linarith
  have d1 : (F.D.get 1)⁻¹ = 3 / 2 := by
    have := el' 1 (by decide)
    rw [b1, he', u1', sum_range_one, if_neg (by decide), if_pos rfl, U01, l0] at this
    linarith
  have d1' : F.D.get 1 = 2 / 3 := by rw [← inv_inv (F.D.get 1), d1]; norm_num
  refine ⟨fun i hi => ?_, d0', d1', by rw [r'.keepL.entry_eq m1, l0], U01⟩
  have : i < 2 := hi
  interval_cases i
  · rw [d0']; norm_num
  · rw [d1']; norm_num

/-- **C56 (finding).** A column stored twice in a row overflows the work array `jbuf` (the ILUT creator does not merge duplicates). -/
theorem ilut_duplicates_overflow :
    createIlutCsr (fun _ => 0) (fun _ => (0 : ℚ)) (fun _ => 0) ⟨2, 2, 4, .ofList [0, 3, 4], .ofList [0, 1, 1, 1], .ofList [1, 1, 1, 1]⟩ 0 9
      (.ofList [0, 0]) = none := by
  rfl

end Lis
