import Verif.Props.Lanczos
import Verif.Props.Arnoldi
import Verif.Props.EsolverFindings

/-!
# C60: Ritz values and refined eigenpairs of `lis_eli`
-/

namespace Lis
open Matrix Finset

section refine
variable {R S V : Type}

/-- the calls of the inner eigensolver, one after the other: mode `i` starts from the Ritz value `ritz i` as shift, with the
content of the variable `evalue` left by the mode before -/
def liChain (inner : ℕ → V → R → R → LiInner R S V) (vjunk : V) (ritz : ℕ → R) (e0 : R) : ℕ → LiInner R S V
  | 0 => inner 0 vjunk (ritz 0) e0
  | i + 1 => inner (i + 1) vjunk (ritz (i + 1)) (liChain inner vjunk ritz e0 i).evalue

theorem liCopyHist_spec (mem : Bool) (k : ℕ) (src dst : Arr S) (h : mem = true → k < src.size ∧ k < dst.size) :
    Ok (liCopyHist mem k src dst) fun a => a.size = dst.size ∧
      (mem = true → ∀ i, i ≤ k → a.get i = src.get i) ∧ (∀ i, k < i → a.get i = dst.get i) ∧ (mem = false → a = dst) := by
  unfold liCopyHist
  cases mem with
  | false => exact ⟨dst, by rfl, by rfl, fun h => absurd h (by decide), fun _ _ => rfl, fun _ => rfl⟩
  | true =>
    obtain ⟨h1, h2⟩ := h rfl
    simp only [if_true]
    refine Ok_loop_le (fun i (a : Arr S) => a.size = dst.size ∧ (∀ j, j < i → a.get j = src.get j) ∧
      ∀ j, i ≤ j → a.get j = dst.get j) (Nat.zero_le _) ⟨rfl, fun _ h => by omega, fun _ _ => rfl⟩ ?_ ?_
    · rintro i a - hi ⟨e1, e2, e3⟩
      simp only [Ok_bind, Ok_rd, Ok_wr]
      refine ⟨by omega, by omega, by simpa using e1, fun j hj => ?_, fun j hj => ?_⟩
      · by_cases hji : j = i
        · subst hji; simp
        · rw [Arr.set_get_ne _ _ hji]; exact e2 j (by omega)
      · rw [Arr.set_get_ne _ _ (by omega)]; exact e3 j (by omega)
    · rintro a ⟨e1, e2, e3⟩
      exact ⟨e1, fun _ i hi => e2 i (by omega), fun i hi => e3 i (by omega), fun h => by cases h⟩

/-- **C60.** The refinement of `lis_eli`: for every inner eigensolver, `evalue[i]`, `iter[i]`, `resid[i]`, `evector[i]` are
what the inner eigensolver left for mode `i`, the history is that of mode 0, the vector returned is that of mode 0 -- and
**the value returned is always `LIS_SUCCESS`, whatever the inner calls returned**. -/
theorem liRefine_spec (inner : ℕ → V → R → R → LiInner R S V) (vjunk : V) (mem : Bool) (ss : ℕ) (s : LiSt R S V) (hss : 1 ≤ ss)
    (h1 : ss ≤ s.evalue.size) (h2 : ss ≤ s.iter.size) (h3 : ss ≤ s.resid.size) (h4 : ss ≤ s.evector.size)
    (hh : let q := inner 0 vjunk (s.evalue.get 0) s.loc.1; mem = true → q.iter < q.hist.size ∧ q.iter < s.hist.size) :
    Ok (liRefine inner vjunk mem ss s) fun r =>
      let q := liChain inner vjunk s.evalue.get s.loc.1
      r.1 = .success ∧ r.2.2 = (q 0).vec ∧
      (∀ i, i < ss → r.2.1.evalue.get i = (q i).evalue ∧ r.2.1.iter.get i = (q i).iter ∧ r.2.1.resid.get i = (q i).resid ∧
        r.2.1.evector.get i = (q i).vec) ∧
      (mem = true → ∀ j, j ≤ (q 0).iter → r.2.1.hist.get j = (q 0).hist.get j) ∧ (mem = false → r.2.1.hist = s.hist) := by
  unfold liRefine
  simp only [Ok_bind]
  obtain ⟨q, hq⟩ : ∃ q, q = liChain inner vjunk s.evalue.get s.loc.1 := ⟨_, rfl⟩
  have hq0 : q 0 = inner 0 vjunk (s.evalue.get 0) s.loc.1 := by rw [hq]; rfl
  have hqs : ∀ i, q (i + 1) = inner (i + 1) vjunk (s.evalue.get (i + 1)) (q i).evalue := fun i => by rw [hq]; rfl
  rw [← hq]
  refine Ok_loop_le (fun i (t : LiSt R S V) => t.evalue.size = s.evalue.size ∧ t.iter.size = s.iter.size ∧
      t.resid.size = s.resid.size ∧ t.evector.size = s.evector.size ∧ (∀ j, i ≤ j → t.evalue.get j = s.evalue.get j) ∧
      (∀ j, j < i → t.evalue.get j = (q j).evalue ∧ t.iter.get j = (q j).iter ∧ t.resid.get j = (q j).resid ∧
        t.evector.get j = (q j).vec) ∧
      t.loc.1 = (if i = 0 then s.loc.1 else (q (i - 1)).evalue) ∧
      (0 < i → t.loc.2 = ((q 0).evalue, (q 0).iter, (q 0).resid)) ∧
      (if i = 0 then t.hist = s.hist else (mem = true → ∀ j, j ≤ (q 0).iter → t.hist.get j = (q 0).hist.get j) ∧
        (mem = false → t.hist = s.hist))) (Nat.zero_le _)
    ⟨rfl, rfl, rfl, rfl, fun _ _ => rfl, fun _ h => by omega, by simp, fun h => by omega, by simp⟩ ?_ ?_
  · rintro i t - hi ⟨a1, a2, a3, a4, a5, a6, a7, a8, a9⟩
    unfold liRefineStep
    have hin : inner i vjunk (t.evalue.get i) t.loc.1 = q i := by
      rw [a5 i le_rfl, a7]
      rcases i with - | i
      · rw [if_pos rfl, hq0]
      · rw [if_neg (by omega), hqs]; simp
    simp only [Ok_bind, Ok_rd, Ok_wr, hin]
    refine ⟨by omega, by omega, by omega, by omega, by omega, ?_⟩
    have key : ∀ (h' : Arr S) (l : R × ℕ × S), ((0 < i ∧ h' = t.hist ∧ l = t.loc.2) ∨ (i = 0 ∧
        l = ((q 0).evalue, (q 0).iter, (q 0).resid) ∧
        (mem = true → ∀ j, j ≤ (q 0).iter → h'.get j = (q 0).hist.get j) ∧ (mem = false → h' = s.hist))) →
        (t.evalue.set i (q i).evalue).size = s.evalue.size ∧ (t.iter.set i (q i).iter).size = s.iter.size ∧
        (t.resid.set i (q i).resid).size = s.resid.size ∧ (t.evector.set i (q i).vec).size = s.evector.size ∧
        (∀ j, i + 1 ≤ j → (t.evalue.set i (q i).evalue).get j = s.evalue.get j) ∧
        (∀ j, j < i + 1 → (t.evalue.set i (q i).evalue).get j = (q j).evalue ∧ (t.iter.set i (q i).iter).get j = (q j).iter ∧
          (t.resid.set i (q i).resid).get j = (q j).resid ∧ (t.evector.set i (q i).vec).get j = (q j).vec) ∧
        (q i).evalue = (if i + 1 = 0 then s.loc.1 else (q (i + 1 - 1)).evalue) ∧
        (0 < i + 1 → l = ((q 0).evalue, (q 0).iter, (q 0).resid)) ∧
        (if i + 1 = 0 then h' = s.hist else (mem = true → ∀ j, j ≤ (q 0).iter → h'.get j = (q 0).hist.get j) ∧
          (mem = false → h' = s.hist)) := by
      intro h' l hl
      refine ⟨by simpa using a1, by simpa using a2, by simpa using a3, by simpa using a4, fun j hj => ?_, fun j hj => ?_, ?_, ?_, ?_⟩
      · rw [Arr.set_get_ne _ _ (by omega)]; exact a5 j (by omega)
      · by_cases hji : j = i
        · subst hji; simp
        · rw [Arr.set_get_ne _ _ hji, Arr.set_get_ne _ _ hji, Arr.set_get_ne _ _ hji, Arr.set_get_ne _ _ hji]
          exact a6 j (by omega)
      · rw [if_neg (by omega)]; simp
      · intro _
        rcases hl with ⟨e1, -, e2⟩ | ⟨-, e2, -⟩
        · rw [e2]; exact a8 e1
        · exact e2
      · rw [if_neg (by omega)]
        rcases hl with ⟨e1, e2, -⟩ | ⟨-, -, e2⟩
        · rw [e2]; rw [if_neg (by omega)] at a9; exact a9
        · exact e2
    unfold liKeep
    by_cases h0 : i = 0
    · subst h0
      rw [if_pos rfl]
      simp only [Ok_bind, Ok_rd, Ok_pure]
      rw [if_pos rfl] at a9
      refine ⟨by simp; omega, ?_⟩
      refine (liCopyHist_spec mem (q 0).iter (q 0).hist t.hist fun hm => ?_).mono ?_
      · rw [hq0, a9]; exact hh hm
      · rintro h' ⟨-, b1, -, b2⟩
        exact key h' _ (.inr ⟨rfl, by simp, b1, fun hm => (b2 hm).trans a9⟩)
    · rw [if_neg h0, Ok_some]
      exact key t.hist t.loc.2 (.inl ⟨by omega, rfl, rfl⟩)
  · rintro t ⟨a1, a2, a3, a4, -, a6, -, a8, a9⟩
    rw [if_neg (by omega)] at a9
    simp only [Ok_wr, Ok_rd, Ok_pure]
    refine ⟨by omega, by omega, by omega, by omega, trivial, (a6 0 (by omega)).2.2.2, fun i hi => ?_, a9.1, a9.2⟩
    rw [a8 (by omega)]
    by_cases h0 : i = 0
    · subst h0
      simp only [Arr.set_get_self]
      exact ⟨trivial, trivial, trivial, (a6 0 hi).2.2.2⟩
    · rw [Arr.set_get_ne _ _ h0, Arr.set_get_ne _ _ h0, Arr.set_get_ne _ _ h0]
      exact a6 i hi

end refine

section ritz
variable {n : ℕ}

theorem liValues_spec {R : Type} (ss : ℕ) (t ev : Arr R) (ht : t.size = ss * ss) (he : ss ≤ ev.size) :
    Ok (liValues ss t ev) fun r => r.size = ev.size ∧ ∀ i, i < ss → r.get i = t.get (i * ss + i) := by
  unfold liValues
  refine Ok_loop_le (fun i (a : Arr R) => a.size = ev.size ∧ ∀ k, k < i → a.get k = t.get (k * ss + k)) (Nat.zero_le _)
    ⟨rfl, fun _ h => by omega⟩ ?_ (fun a h => h)
  rintro i a - hi ⟨h1, h2⟩
  simp only [Ok_bind, Ok_rd, Ok_wr]
  refine ⟨by rw [ht]; exact li_idx hi hi, by omega, by simpa using h1, fun k hk => ?_⟩
  by_cases hki : k = i
  · subst hki; simp
  · rw [Arr.set_get_ne _ _ hki]; exact h2 k (by omega)

/-- `lis_array_qr` with tolerance `q`, as called by `lis_eli` -/
noncomputable def liQr (q : ℝ) (junk jq jr : ℕ → ℝ) (ej : ℝ) (maxiter : ℕ) (ss : ℕ) (t : Arr ℝ) : Option (Arr ℝ) :=
  (arrayQr Real.sqrt (fun v => |v|) (fun v => decide (v < q)) junk ej maxiter ss t (Arr.malloc (ss * ss) jq)
    (Arr.malloc (ss * ss) jr)).map QrSt.a

theorem OrthSimilar.trace {n : ℕ} {A B : Matrix (Fin n) (Fin n) ℝ} (h : OrthSimilar A B) : B.trace = A.trace := by
  obtain ⟨P, hP, rfl⟩ := h
  rw [Matrix.trace_mul_comm, ← Matrix.mul_assoc, mul_eq_one_comm.1 hP, Matrix.one_mul]

/-- **C60 (finding).** `lis_eli` with `-rval true`, real arithmetic, symmetric `A`: the `ss` Ritz values it reports add up to
`v_1ᵀAv_1 + … + v_mᵀAv_m` with only `m ≤ ss-1` orthonormal vectors: they belong to a matrix with a spurious row and
column (whenever `t` is not nearly singular, so that `lis_array_qr` keeps the spectrum). -/
theorem liRitz_sum (K : Kit ℝ ℝ n) (hK : K.Euclid) (A : Matrix (Fin n) (Fin n) ℝ) (hA : A.IsSymm)
    (hmv : ∀ x, K.mv x = A *ᵥ x) (hn : 0 < n) (junk jg jq jr : ℕ → ℝ) (ej tol q : ℝ) (ht : 0 < tol) (hq : 0 < q) (maxiter : ℕ)
    (hmax : 1 ≤ maxiter) (ss : ℕ) (hss : 2 ≤ ss) (ev : Arr ℝ) (hev : ss ≤ ev.size) (s : MSt ℝ ℝ n)
    (hLB : ∀ r, (liTridiag liLt junk tol ss).run K s = some r → LowerBound ss q (r.1.2.cm ss)) :
    Ok ((liRitz (liQr q jg jq jr ej maxiter) liLt junk tol ss ev).run K s) fun r => ∃ m, 1 ≤ m ∧ m ≤ ss - 1 ∧
      (∀ i k, i < m → k < m → r.2.h (liV (i + 1)) ⬝ᵥ r.2.h (liV (k + 1)) = if i = k then 1 else 0) ∧
      ∑ i ∈ range ss, r.1.get i = ∑ k ∈ range m, r.2.h (liV (k + 1)) ⬝ᵥ A *ᵥ r.2.h (liV (k + 1)) := by
  obtain ⟨⟨⟨m, t⟩, s1⟩, e, ⟨m', hm, b1, b2, b3, -⟩⟩ := liTridiag_exact K hK A hA hmv hn junk tol ht ss hss s
  obtain ⟨r', e', c1, c2, -, -, c5⟩ := liTridiag_shape K liLt junk tol ss (by omega) s
  rw [e] at e'
  cases e'
  simp only at hm b3 c1 c2 c5
  subst hm
  have hlb := hLB _ e
  simp only at hlb
  obtain ⟨st, eq, d1, d2, -⟩ := arrayQr_spec (n := ss) (maxiter := maxiter) (ejunk := ej) (junk := jg) (a := t)
    (q := Arr.malloc (ss * ss) jq) (r := Arr.malloc (ss * ss) jr) hq hss hmax (by omega) (le_of_eq rfl) (le_of_eq rfl) hlb
  obtain ⟨ev', f1, -, f2⟩ := liValues_spec ss st.a ev (by omega) hev
  unfold liRitz
  rw [Prog.run_bind, e]
  simp only [Option.bind_some]
  rw [Prog.run_bind]
  unfold liQr
  rw [eq]
  simp only [Option.map_some, Prog.ofOption, Prog.run, Option.bind_some, f1]
  refine ⟨_, rfl, m', b1, b2, b3.orth, ?_⟩
  simp only
  have h1 : ∑ i ∈ range ss, ev'.get i = (sqMat ss (st.a.cm ss)).trace := by
    rw [Matrix.trace, Finset.sum_range]
    refine Finset.sum_congr rfl fun i _ => ?_
    rw [f2 i i.2]
    simp [Matrix.diag, sqMat, Arr.cm, Nat.add_comm]
  have h2 : (sqMat ss (t.cm ss)).trace = ∑ p ∈ range ss, t.rm ss p p := by
    rw [Matrix.trace, Finset.sum_range]
    refine Finset.sum_congr rfl fun i _ => ?_
    simp [Matrix.diag, sqMat, Arr.cm, Arr.rm, Nat.add_comm]
  rw [h1, d2.trace, h2]
  rw [← Finset.sum_subset (range_subset_range.2 (show m' ≤ ss by omega)) fun p hp hnp => c5 p (mem_range.1 hp)
    (by have := mt mem_range.2 hnp; omega)]
  exact Finset.sum_congr rfl fun k hk => b3.proj k k (mem_range.1 hk) (mem_range.1 hk)

/-- **C60 (finding).** `lis_eli` with `-ss 1`, the default: `lis_array_qr` reads outside its array, for every matrix. -/
theorem liRitz_default_undefined (K : Kit ℝ ℝ n) (junk jg jq jr : ℕ → ℝ) (ej tol q : ℝ) (hq : 0 < q) (maxiter : ℕ)
    (hmax : 1 ≤ maxiter) (ev : Arr ℝ) (s : MSt ℝ ℝ n) :
    (liRitz (liQr q jg jq jr ej maxiter) liLt junk tol 1 ev).run K s = none := by
  obtain ⟨⟨⟨m, t⟩, s1⟩, e, -, c2, -⟩ := liTridiag_shape K liLt junk tol 1 le_rfl s
  unfold liRitz
  rw [Prog.run_bind, e]
  simp only [Option.bind_some] at c2 ⊢
  rw [Prog.run_bind]
  unfold liQr
  rw [qr_one_out_of_bounds (a := t) hq hmax (by simpa using c2) (le_of_eq rfl) (le_of_eq rfl)]
  rfl

end ritz

/-! ## concrete cases -/
section runs
attribute [local instance] starRingOfComm ratReal

private def liKit (d : Fin 4 → ℚ) : Kit ℚ ℚ 4 where
  mv := fun v i => d i * v i
  mvh := fun v i => d i * v i
  ps := id
  psh := id
  ls := id
  rdg := fun _ => 1
  dot := fun x y => x 0 * y 0 + x 1 * y 1 + x 2 * y 2 + x 3 * y 3
  nhdot := fun x y => x 0 * y 0 + x 1 * y 1 + x 2 * y 2 + x 3 * y 3
  nrm2 := fun v => sqrtQ (v 0 * v 0 + v 1 * v 1 + v 2 * v 2 + v 3 * v 3)
  nrm1 := fun v => |v 0| + |v 1| + |v 2| + |v 3|

private def liS : MSt ℚ ℚ 4 := ⟨fun _ => fun _ => 9, ⟨0, fun _ => 0⟩⟩
private instance : EigOps ℚ ℚ := ⟨abs, id, sqrtQ⟩
private def ltQ (a b : ℚ) : Bool := decide (a < b)
private def smQ (v : ℚ) : Bool := decide (v < 1 / 10 ^ 12)

/-- `A = diag(1,1,3,3)`, `-ss 2`: `t = [[2,1],[1,0]]`, whose eigenvalues are `1 ± √2`; those of `A` are 1 and 3 -/
example : ((liTridiag (R := ℚ) (S := ℚ) ltQ (fun _ => 7) (1 / 10 ^ 12) 2).run (liKit ![1, 1, 3, 3]) liS).map
    (fun r => (r.1.1, r.1.2.toList, r.2.h (liV 1))) = some (1, [2, 1, 1, 0], ![1 / 2, 1 / 2, 1 / 2, 1 / 2]) := by decide +kernel

/-- with `-ss 3` the second vector is there, and the leading block `[[2,1],[1,2]]` has the eigenvalues 1 and 3 of `A`; the
whole of `t` is singular -/
example : ((liTridiag (R := ℚ) (S := ℚ) ltQ (fun _ => 7) (1 / 10 ^ 12) 3).run (liKit ![1, 1, 3, 3]) liS).map
    (fun r => (r.1.1, r.1.2.toList, r.2.h (liV 2))) =
    some (2, [2, 1, 0, 1, 2, 0, 0, 0, 0], ![-1 / 2, -1 / 2, 1 / 2, 1 / 2]) := by decide +kernel

/-- finding: for `A = 5 I` the Ritz values reported with `-ss 2` are 5 and **0** -/
example : ((liRitz (R := ℚ) (S := ℚ) (fun n a => (arrayQr sqrtQ abs smQ (fun _ => 5) 0 100000 n a (Arr.malloc (n * n) fun _ => 7)
    (Arr.malloc (n * n) fun _ => 7)).map QrSt.a) ltQ (fun _ => 7) (1 / 10 ^ 12) 2 (Arr.ofList [8, 8])).run
    (liKit ![5, 5, 5, 5]) liS).map (fun r => r.1.toList) = some [5, 0] := by decide +kernel

/-- refinement of two modes by an inner eigensolver that fails and leaves `evalue` alone in mode 1 -/
example : (liRefine (R := ℚ) (S := ℚ) (V := ℕ) (fun i v sh e => if i = 0 then ⟨.success, 100, sh + 1, 2, 3, Arr.ofList [6, 5, 3]⟩
      else ⟨.maxiter, v, e, 9, 8, Arr.ofList []⟩) 55 true 2
    ⟨Arr.ofList [10, 20], Arr.ofList [0, 0], Arr.ofList [0, 0], Arr.ofList [0, 0, 0, 0], Arr.ofList [0, 0], (77, 0, 0, 0)⟩).map
    (fun r => (r.1, r.2.1.evalue.toList, r.2.1.iter.toList, r.2.1.hist.toList, r.2.2)) =
    some (.success, [11, 11], [2, 9], [6, 5, 3, 0], 100) := by decide +kernel

/-- Arnoldi, `-ss 3`, `A = diag(1,1,3,3)`: breakdown in the second pass, so the loop itself stays inside `h`; then the last
step of the loop over the diagonal reads `h[9]` -/
example : ((aiHess (R := ℚ) (S := ℚ) ltQ (fun _ => 7) (1 / 10 ^ 12) 3).run (liKit ![1, 1, 3, 3]) liS).map
    (fun r => (r.1.1, r.1.2.toList)) = some (2, [2, 1, 0, 1, 2, 0, 0, 0, 0]) ∧
    aiValues smQ (fun a b c d => decide ((a + d) * (a + d) - 4 * (a * d - b * c) < 0)) (fun a d => (a + d) / 2) 3
      (Arr.ofList [2, 1, 0, 1, 2, 0, 0, 0, 0]) 3 0 (Arr.ofList [0, 0, 0]) = none := by decide +kernel

/-- `A = diag(1,1,3,3)`, `-ss 2`: no breakdown, the last pass writes `h[4]` -/
example : (aiHess (R := ℚ) (S := ℚ) ltQ (fun _ => 7) (1 / 10 ^ 12) 2).run (liKit ![1, 1, 3, 3]) liS |>.isNone := by decide +kernel

end runs

/-- the hypotheses of the exact theorems are met by every symmetric matrix -/
example (A : Matrix (Fin 2) (Fin 2) ℝ) (hA : A.IsSymm) (s : MSt ℝ ℝ 2) :
    Ok ((liTridiag liLt (fun _ => 7) (1 / 10 ^ 12) 3).run ((demoEKit fun _ v => (.success, v)).kit false A) s) fun r =>
      ∃ m, m = r.1.1 ∧ 1 ≤ m ∧ m ≤ 2 ∧
        LanczosBasis A m (r.1.2.rm 3) (fun k => r.2.h (liV (k + 1))) (r.2.h liR) :=
  (liTridiag_exact ((demoEKit fun _ v => (.success, v)).kit false A) ⟨fun _ _ => rfl, fun _ => rfl⟩ A hA (fun _ => rfl) (by norm_num)
    (fun _ => 7) (1 / 10 ^ 12) (by norm_num) 3 (by norm_num) s).mono fun r ⟨m, h1, h2, h3, h4, _⟩ => ⟨m, h1, h2, h3, h4⟩

end Lis
