import Verif.Model.GramSchmidt
import Verif.Spec.GramSchmidt
import Verif.Base.Sum
import Verif.Lemmas.AnyOps
import Verif.Props.ArraySolve
import Mathlib.Analysis.Real.Sqrt
import Mathlib.Tactic.Linarith
import Mathlib.Tactic.LinearCombination

namespace Lis
open Finset
variable {R : Type}

theorem cm_inj {n i j i' j' : ℕ} (hi : i < n) (hi' : i' < n) (h : i + j * n = i' + j' * n) : i = i' ∧ j = j' := by
  have := flat_inj (i := j) (i' := j') hi hi' (by omega)
  exact ⟨this.2, this.1⟩

theorem arrayNrm2_spec [Semiring R] [Sub R] [Div R] {sqrt : R → R} {n : ℕ} {x : Arr R} (hx : n ≤ x.size) :
    Ok (arrayNrm2 sqrt n x) fun v => v = sqrt (∑ i ∈ range n, x.get i * x.get i) := by
  unfold arrayNrm2
  simp only [Ok_bind, Ok_pure]
  refine Ok_loop_sum' (fun i => x.get i * x.get i) (fun i t _ h => ?_) ?_
  · simp only [Ok_bind, Ok_rd, Ok_pure]
    exact ⟨by omega, trivial⟩
  · rw [zero_add, range_eq_Ico]

theorem gsZero_spec [Zero R] {m : ℕ} {q r : Arr R} (hq : m ≤ q.size) (hr : m ≤ r.size) :
    Ok (gsZero m (q, r)) fun s => s.1.size = q.size ∧ s.2.size = r.size ∧ ∀ i, i < m → s.1.get i = 0 ∧ s.2.get i = 0 := by
  unfold gsZero
  refine Ok_loop_le (fun k s => s.1.size = q.size ∧ s.2.size = r.size ∧ ∀ i, i < k → s.1.get i = 0 ∧ s.2.get i = 0)
    (Nat.zero_le _) ⟨rfl, rfl, fun i h => by omega⟩ ?_ fun s h => h
  rintro i s - h ⟨h1, h2, h3⟩
  simp only [Ok_bind, Ok_wr, Ok_pure, Arr.set_size]
  refine ⟨by omega, by omega, h1, h2, fun p hp => ?_⟩
  simp only [Arr.set_get]
  split
  · exact ⟨rfl, rfl⟩
  · exact h3 p (by omega)

theorem gsCol_spec {n k : ℕ} {a ak : Arr R} (ha : n * n ≤ a.size) (hk : k < n) (hak : n ≤ ak.size) :
    Ok (gsCol n k a ak) fun x => x.size = ak.size ∧ ∀ i, i < n → x.get i = a.cm n i k := by
  unfold gsCol
  refine Ok_loop_fill (fun i => a.cm n i k) ?_ ?_
  · intro i y _ h2 hy _ _
    simp only [Ok_bind, Ok_rd, Ok_wr]
    exact ⟨el_lt ha h2 hk, by omega, rfl⟩
  · intro y h1 h2 _
    exact ⟨h1, fun i hi => h2 i (by omega) hi⟩

variable [CommRing R]

theorem gsDot_spec {n j k : ℕ} {a q r : Arr R} (ha : n * n ≤ a.size) (hq : n * n ≤ q.size) (hr : n * n ≤ r.size)
    (hj : j < n) (hk : k < n) :
    Ok (gsDot n j k a q r) fun r' => r' = r.set (j + k * n) (∑ i ∈ range n, q.cm n i j * a.cm n i k) := by
  unfold gsDot
  simp only [Ok_bind, Ok_wr]
  refine ⟨el_lt hr hj hk, ?_⟩
  refine Ok_loop_le (fun m x => x = r.set (j + k * n) (∑ i ∈ range m, q.cm n i j * a.cm n i k)) (Nat.zero_le _)
    (by simp) ?_ fun x h => h
  rintro m x - hm rfl
  simp only [Ok_bind, Ok_rd, Ok_wr, Arr.set_size]
  refine ⟨el_lt hr hj hk, el_lt hq hm hj, el_lt ha hm hk, el_lt hr hj hk, ?_⟩
  rw [sum_range_succ, Arr.set_get_self]
  simp only [Arr.set, Arr.cm]
  congr 1
  funext p
  split <;> rfl

theorem gsSub_spec {n j k o : ℕ} {q r x : Arr R} (hq : n * n ≤ q.size) (hr : n * n ≤ r.size) (hj : j < n) (hk : k < n)
    (hx : n + o ≤ x.size) :
    Ok (gsSub n j k o q r x) fun x' => x'.size = x.size ∧
      (∀ i, i < n → x'.get (i + o) = x.get (i + o) - r.cm n j k * q.cm n i j) ∧
      ∀ p, (p < o ∨ n + o ≤ p) → x'.get p = x.get p := by
  unfold gsSub
  refine Ok_loop_le (fun m y => y.size = x.size ∧
      (∀ i, i < m → y.get (i + o) = x.get (i + o) - r.cm n j k * q.cm n i j) ∧
      ∀ p, (p < o ∨ m + o ≤ p) → y.get p = x.get p) (Nat.zero_le _) ⟨rfl, fun i h => by omega, fun p _ => rfl⟩ ?_
    fun y h => h
  rintro m y - hm ⟨h1, h2, h3⟩
  simp only [Ok_bind, Ok_rd, Ok_wr, Arr.set_size]
  refine ⟨by omega, el_lt hr hj hk, el_lt hq hm hj, by omega, h1, fun i hi => ?_, fun p hp => ?_⟩
  · rw [Arr.set_get]
    split
    · have : i = m := by omega
      subst this
      rw [h3 (i + o) (by omega)]; rfl
    · exact h2 i (by omega)
  · rw [Arr.set_get, if_neg (by omega)]
    exact h3 p (by omega)

theorem gsNormalize_spec [Div R] {n k : ℕ} {ak q : Arr R} {nrm : R} (hk : k < n) (hak : n ≤ ak.size) (hq : n * n ≤ q.size) :
    Ok (gsNormalize n k ak nrm q) fun q' => q'.size = q.size ∧
      (∀ i, i < n → q'.cm n i k = ak.get i / nrm) ∧ ∀ i j, i < n → j < n → j ≠ k → q'.cm n i j = q.cm n i j := by
  unfold gsNormalize
  refine Ok_loop_le (fun m y => y.size = q.size ∧ (∀ i, i < m → y.cm n i k = ak.get i / nrm) ∧
      ∀ i j, i < n → j < n → j ≠ k → y.cm n i j = q.cm n i j) (Nat.zero_le _)
    ⟨rfl, fun i h => by omega, fun i j _ _ _ => rfl⟩ ?_ fun y h => h
  rintro m y - hm ⟨h1, h2, h3⟩
  simp only [Ok_bind, Ok_rd, Ok_wr, Arr.set_size]
  refine ⟨by omega, by rw [h1]; exact el_lt hq hm hk, h1, fun i hi => ?_, fun i j hi hj hne => ?_⟩
  · simp only [Arr.cm, Arr.set_get]
    split
    · rename_i h
      rw [(cm_inj (by omega) hm h).1]
    · rename_i h
      exact h2 i (by
        rcases Nat.lt_or_ge i m with h' | h'
        · exact h'
        · exact absurd (show i + k * n = m + k * n by rw [show i = m by omega]) h)
  · simp only [Arr.cm, Arr.set_get]
    rw [if_neg fun h => hne (cm_inj hi hm h).2]
    exact h3 i j hi hj hne

/-- the loop over the earlier columns in `lis_array_cgs` -/
theorem cgsInner_spec {n k : ℕ} {a q r ak : Arr R} (ha : n * n ≤ a.size) (hq : n * n ≤ q.size) (hr : n * n ≤ r.size)
    (hk : k < n) (hak : n ≤ ak.size) (h0 : ∀ i, i < n → ak.get i = a.cm n i k) :
    Ok (loop 0 k (r, ak) fun j t => do
        let r ← gsDot n j k a q t.1
        let ak ← gsSub n j k 0 q r t.2
        pure (r, ak)) fun t => t.1.size = r.size ∧ t.2.size = ak.size ∧
      (∀ j, j < k → t.1.cm n j k = ∑ i ∈ range n, q.cm n i j * a.cm n i k) ∧
      (∀ i j, i < n → j < n → (j ≠ k ∨ k ≤ i) → t.1.cm n i j = r.cm n i j) ∧
      ∀ i, i < n → t.2.get i = a.cm n i k - ∑ j ∈ range k, q.cm n i j * t.1.cm n j k := by
  refine Ok_loop_le (fun m t => t.1.size = r.size ∧ t.2.size = ak.size ∧
      (∀ j, j < m → t.1.cm n j k = ∑ i ∈ range n, q.cm n i j * a.cm n i k) ∧
      (∀ i j, i < n → j < n → (j ≠ k ∨ m ≤ i) → t.1.cm n i j = r.cm n i j) ∧
      ∀ i, i < n → t.2.get i = a.cm n i k - ∑ j ∈ range m, q.cm n i j * t.1.cm n j k) (Nat.zero_le _)
    ⟨rfl, rfl, fun j h => by omega, fun i j _ _ _ => rfl, fun i hi => by simp [h0 i hi]⟩ ?_ fun t h => h
  rintro m t - hm ⟨h1, h2, h3, h4, h5⟩
  simp only [Ok_bind]
  refine (gsDot_spec ha hq (by omega) (by omega : m < n) hk).mono ?_
  rintro r' rfl
  have hcm : ∀ i j, i < n → j < n → (t.1.set (m + k * n) (∑ i ∈ range n, q.cm n i m * a.cm n i k)).cm n i j =
      if i = m ∧ j = k then ∑ i ∈ range n, q.cm n i m * a.cm n i k else t.1.cm n i j := by
    intro i j hi hj
    simp only [Arr.cm, Arr.set_get]
    by_cases h : i = m ∧ j = k
    · rw [if_pos (by rw [h.1, h.2]), if_pos h]
    · rw [if_neg (fun e => h (cm_inj hi (by omega) e)), if_neg h]
  refine (gsSub_spec hq (by rw [Arr.set_size]; omega) (by omega : m < n) hk (by omega)).mono ?_
  rintro x ⟨s1, s2, -⟩
  simp only [Ok_pure, Arr.set_size]
  simp only [Nat.add_zero] at s2
  refine ⟨h1, by omega, fun j hj => ?_, fun i j hi hj hor => ?_, fun i hi => ?_⟩
  · rw [hcm j k (by omega) hk]
    split
    · rename_i h; rw [h.1]
    · exact h3 j (by omega)
  · rw [hcm i j hi hj, if_neg (by omega)]
    exact h4 i j hi hj (by omega)
  · rw [s2 i hi, h5 i hi, sum_range_succ, hcm m k (by omega) hk, if_pos ⟨rfl, rfl⟩]
    have e : ∑ j ∈ range m, q.cm n i j * (t.1.set (m + k * n) (∑ i ∈ range n, q.cm n i m * a.cm n i k)).cm n j k =
        ∑ j ∈ range m, q.cm n i j * t.1.cm n j k := by
      refine sum_congr rfl fun j hj => ?_
      have := mem_range.1 hj
      rw [hcm j k (by omega) hk, if_neg (by omega)]
    rw [e]
    ring

end Lis
