import Verif.Lemmas.Ilut
import Verif.Props.Ilu
import Verif.Props.Sort
import Verif.Props.AnyShift

/-!
# ILUT: the elimination of one row
-/

namespace Lis
open Finset
variable {R : Type}

/-- a finished row `k` of a factor: block sizes, column range, no column twice -/
structure IluMat.RowOk (M : IluMat R) (lo hi k : ℕ) : Prop where
  isz : (M.index k).size = M.nnz.get k
  vsz : (M.value k).size = M.nnz.get k
  rng : ∀ t, t < M.nnz.get k → lo ≤ (M.index k).get t ∧ (M.index k).get t < hi
  inj : ∀ t u, t < M.nnz.get k → u < M.nnz.get k → (M.index k).get t = (M.index k).get u → t = u

section field
variable [Field R] [LinearOrder R] [IsStrictOrderedRing R]

theorem twUpdLoop_spec {n i j r : ℕ} {tn f : R} (ht : 0 ≤ tn) {idx : Arr ℕ} {val : Arr R} {m : ℕ} (hs : m ≤ idx.size) (hv : m ≤ val.size)
    (hr : ∀ t, t < m → r < idx.get t ∧ idx.get t < n)
    (hinj : ∀ t u, t < m → u < m → idx.get t = idx.get u → t = u)
    {s : TW R} (h : TInv n i j s) (hp : ∀ p, p < j → s.jbuf.get p ≤ r) :
    Ok (loop 0 m s fun k s => twUpd tn i f idx val k s) fun s' => TInv n i j s' ∧ TKeep i j s s' ∧ ∃ e : ℕ → R,
      (∀ c, c < n → s.cur c = f * (∑ t ∈ range m, if idx.get t = c then val.get t else 0) + s'.cur c + e c) ∧
      (∀ c, |e c| ≤ tn) ∧ ∀ c, e c ≠ 0 → ¬ THas i s c := by
  refine Ok_loop_le (fun k (s' : TW R) => TInv n i j s' ∧ TKeep i j s s' ∧ ∃ e : ℕ → R,
      (∀ c, c < n → s.cur c = f * (∑ t ∈ range k, if idx.get t = c then val.get t else 0) + s'.cur c + e c) ∧
      (∀ c, |e c| ≤ tn) ∧ (∀ c, e c ≠ 0 → ¬ THas i s c) ∧ ∀ c, e c ≠ 0 → ∃ t, t < k ∧ idx.get t = c) (Nat.zero_le _) ?_ ?_ ?_
  · refine ⟨h, TKeep.rfl', fun _ => 0, fun c hc => by simp, fun c => by simpa using ht, fun c hc => absurd rfl hc, fun c hc => absurd rfl hc⟩
  · rintro k s' - hk ⟨g1, g2, e, g3, g4, g5, g6⟩
    obtain ⟨r1, r2⟩ := hr k hk
    have his := g1.isz
    have hold : ∀ p, p < j → s'.jbuf.get p < idx.get k := fun p hpj => by
      rw [g2.jb p hpj]
      have := hp p hpj
      omega
    -- adding the product to the current value
    have add : ∀ s2 : TW R, TInv n i j s2 → TKeep i j s' s2 →
        (∀ c, c < n → s2.cur c = if c = idx.get k then s'.cur c + -f * val.get k else s'.cur c) →
        TInv n i j s2 ∧ TKeep i j s s2 ∧ ∃ e : ℕ → R,
          (∀ c, c < n → s.cur c = f * (∑ t ∈ range (k + 1), if idx.get t = c then val.get t else 0) + s2.cur c + e c) ∧
          (∀ c, |e c| ≤ tn) ∧ (∀ c, e c ≠ 0 → ¬ THas i s c) ∧ ∀ c, e c ≠ 0 → ∃ t, t < k + 1 ∧ idx.get t = c := by
      intro s2 f1 f2 f3
      refine ⟨f1, g2.trans f2, e, fun c hc => ?_, g4, g5, fun c hc => ?_⟩
      · rw [g3 c hc, f3 c hc, sum_range_succ]
        by_cases ec : c = idx.get k
        · rw [if_pos ec, if_pos ec.symm]; ring
        · rw [if_neg ec, if_neg (Ne.symm ec)]; ring
      · obtain ⟨t, t1, t2⟩ := g6 c hc
        exact ⟨t, by omega, t2⟩
    unfold twUpd
    simp only [Ok_bind, Ok_rd]
    refine ⟨by omega, by omega, by omega, ?_⟩
    split_ifs with c1 c2 c3
    · rw [Ok_pure]
      obtain ⟨d1, d2⟩ := c1
      have hz : e (idx.get k) = 0 := by
        by_contra hc
        obtain ⟨t, t1, t2⟩ := g6 _ hc
        have := hinj t k (by omega) hk t2
        omega
      have hcur : s'.cur (idx.get k) = 0 := TW.cur_none d2
      refine ⟨g1, g2, Function.update e (idx.get k) (-f * val.get k), fun c hc => ?_, fun c => ?_, fun c hc => ?_, fun c hc => ?_⟩
      · rw [g3 c hc, sum_range_succ]
        by_cases ec : c = idx.get k
        · rw [ec, if_pos rfl, Function.update_self, hz, hcur]; ring
        · rw [if_neg (Ne.symm ec), Function.update_of_ne ec]; ring
      · by_cases ec : c = idx.get k
        · rw [ec, Function.update_self]; exact d1.le
        · rw [Function.update_of_ne ec]; exact g4 c
      · by_cases ec : c = idx.get k
        · intro hh
          refine g1.notHas d2 (fun p hpj he => ?_) (ec ▸ g2.has c hh)
          have := hold p hpj
          omega
        · rw [Function.update_of_ne ec] at hc; exact g5 c hc
      · by_cases ec : c = idx.get k
        · exact ⟨k, by omega, ec.symm⟩
        · rw [Function.update_of_ne ec] at hc
          obtain ⟨t, t1, t2⟩ := g6 c hc
          exact ⟨t, by omega, t2⟩
    · have hne : idx.get k ≠ i := fun he => by
        have := g1.markI
        rw [he] at c2
        omega
      refine (twPushU_spec g1 _ (by omega) r2 c2).mono ?_
      rintro s2 ⟨f1, f2, f3, -⟩
      refine add s2 f1 f2 fun c hc => ?_
      rw [f3 c hc]
      split_ifs with ec
      · rw [ec, TW.cur_none c2, zero_add]
      · rfl
    · refine (twPushL_spec g1 _ (by omega) c2 hold).mono ?_
      rintro s2 ⟨f1, f2, f3, -⟩
      refine add s2 f1 f2 fun c hc => ?_
      rw [f3 c hc]
      split_ifs with ec
      · rw [ec, TW.cur_none c2, zero_add]
      · rfl
    · obtain ⟨a1, a2, a3, a4, a5, a6⟩ := g1.setw (s'.w.get (s'.iw.get (idx.get k)).toNat + -f * val.get k) r2 c2
      simp only [Ok_bind, Ok_rdI, Ok_wrI, Ok_pure]
      refine ⟨a1, a2, a1, a2, add _ a4 a5 fun c hc => ?_⟩
      rw [a6 c hc]
      split_ifs with ec
      · rw [ec, a3]
      · rfl
  · rintro s' ⟨g1, g2, e, g3, g4, g5, -⟩
    exact ⟨g1, g2, e, g3, g4, g5⟩

theorem twPivot_spec {n i j : ℕ} {tn : R} (ht : 0 ≤ tn) {U : IluMat R} {D : Arr R} (hU : ∀ k, k < i → U.RowOk (k + 1) n k)
    (hnz : U.nnz.size = n) (hD : n ≤ D.size) {s : TW R} (h : TInv n i j s) (hj : j < s.lenl) :
    Ok (twPivot tn i U D j s) fun s' => TInv n i (j + 1) s' ∧ TKeep i j s s' ∧ s'.jbuf.get j < i ∧ ∃ e : ℕ → R,
      (D.get (s'.jbuf.get j) ≠ 0 → ∀ c, c < n → s.cur c = s'.w.get j *
        (U.entry (s'.jbuf.get j) c + if c = s'.jbuf.get j then (D.get (s'.jbuf.get j))⁻¹ else 0) + s'.cur c + e c) ∧
      (∀ c, |e c| ≤ tn) ∧ ∀ c, e c ≠ 0 → ¬ THas i s c := by
  have hi := h.hi
  unfold twPivot
  rw [Ok_bind]
  refine (twMin_spec h hj).mono ?_
  rintro ⟨r, m⟩ ⟨a1, a2, a3, a4⟩
  simp only at a1 a2 a3 a4
  rw [Ok_bind]
  refine (twSwap_spec h (p := (r, m)) a1 a2 a3 a4).mono ?_
  rintro s1 ⟨b1, b2, b3, b4, b5, b6⟩
  simp only at b4 b6
  have hll := b1.ll
  have hws := b1.wsz
  have his := b1.isz
  have hr : r < i := by have := b1.low j (by omega); omega
  obtain ⟨t1, t2, t3, t4⟩ := b1.take (by omega) b4 (fun k k1 k2 => b6 k k1 (by omega)) (s1.w.get j * D.get r)
  simp only [Ok_bind, Ok_rd, Ok_wr]
  refine ⟨by omega, by omega, by omega, by omega, by omega, ?_⟩
  have ur := hU r hr
  refine (twUpdLoop_spec (r := r) ht (by rw [ur.isz]) (by rw [ur.vsz]) (fun t htt => ⟨(ur.rng t htt).1, (ur.rng t htt).2⟩) ur.inj t2 ?_).mono ?_
  · intro p hp
    simp only
    rcases Nat.lt_or_ge p j with a | a
    · have := b1.ord p j a a (by omega); omega
    · rw [show p = j by omega, b4]
  · rintro s' ⟨g1, g2, e, g3, g4, g5⟩
    have hjb : s'.jbuf.get j = r := by rw [g2.jb j (by omega)]; exact b4
    have hwj : s'.w.get j = s1.w.get j * D.get r := by rw [g2.w j (by omega)]; simp
    have k1 : TKeep i j s s' := by
      refine (b2.trans t3).trans ⟨fun p hp => g2.jb p (by omega), fun p hp => g2.w p (by omega), g2.ll, g2.has⟩
    refine ⟨g1, k1, by omega, e, fun hd c hc => ?_, g4, fun c hc hh => g5 c hc ((b2.trans t3).has c hh)⟩
    rw [hjb] at hd ⊢
    rw [hwj, ← b3 c hc, mul_add]
    have g := g3 c hc
    rw [t4 c hc] at g
    by_cases ec : c = r
    · rw [if_pos ec] at g ⊢
      rw [mul_assoc _ (D.get r) (D.get r)⁻¹, mul_inv_cancel₀ hd, mul_one, t1, ec]
      rw [t1, ec] at g
      unfold IluMat.entry
      linear_combination g
    · rw [if_neg ec] at g ⊢
      rw [g]
      unfold IluMat.entry
      ring

/-- `U` with its diagonal, the reciprocal of `D` -/
def ufull (U : IluMat R) (D : Arr R) (k c : ℕ) : R := U.entry k c + if c = k then (D.get k)⁻¹ else 0

/-- the elimination loop of row `i` -/
theorem twWhile_spec {n i : ℕ} {tn : R} (ht : 0 ≤ tn) {U : IluMat R} {D : Arr R} (hU : ∀ k, k < i → U.RowOk (k + 1) n k)
    (hnz : U.nnz.size = n) (hD : n ≤ D.size) {s : TW R} (h : TInv n i 0 s) :
    Ok (whileL (fun q : ℕ × TW R => some (decide (q.1 < q.2.lenl)))
      (fun q => (twPivot tn i U D q.1 q.2).map fun s => (q.1 + 1, s)) (0, s)) fun q =>
      TInv n i q.2.lenl q.2 ∧ ∃ e : ℕ → R,
        ((∀ k, k < i → D.get k ≠ 0) → ∀ c, c < n →
          s.cur c = (∑ p ∈ range q.2.lenl, q.2.w.get p * ufull U D (q.2.jbuf.get p) c) + q.2.cur c + e c) ∧
        (∀ c, |e c| ≤ i * tn) ∧ ∀ c, e c ≠ 0 → ¬ THas i s c := by
  refine Ok_while (fun q => TInv n i q.1 q.2 ∧ (∀ c, THas i s c → THas i q.2 c) ∧ ∃ e : ℕ → R,
        ((∀ k, k < i → D.get k ≠ 0) → ∀ c, c < n →
          s.cur c = (∑ p ∈ range q.1, q.2.w.get p * ufull U D (q.2.jbuf.get p) c) + q.2.cur c + e c) ∧
        (∀ c, |e c| ≤ q.1 * tn) ∧ ∀ c, e c ≠ 0 → ¬ THas i s c) (fun q => i - q.1) ?_ ?_
  · exact ⟨h, fun _ hc => hc, fun _ => 0, fun _ c hc => by simp, fun c => by simp, fun c hc => absurd rfl hc⟩
  · rintro ⟨j, s1⟩ ⟨g1, g0, e, g2, g3, g4⟩
    simp only at g1 g2 g3 g0
    rw [Ok_some]
    simp only [decide_eq_true_eq]
    have hll := g1.ll
    have hjl := g1.jl
    split_ifs with hj
    · refine Ok_map ((twPivot_spec ht hU hnz hD g1 hj).mono ?_)
      rintro s2 ⟨f1, f2, f3, e2, f4, f5, f6⟩
      refine ⟨⟨f1, fun c hc => f2.has c (g0 c hc), fun c => e c + e2 c, fun hd c hc => ?_, fun c => ?_, fun c hc => ?_⟩, by simp only; omega⟩
      · simp only
        rw [g2 hd c hc, f4 (hd _ f3) c hc, sum_range_succ]
        have : ∑ p ∈ range j, s2.w.get p * ufull U D (s2.jbuf.get p) c = ∑ p ∈ range j, s1.w.get p * ufull U D (s1.jbuf.get p) c := by
          refine sum_congr rfl fun p hp => ?_
          rw [mem_range] at hp
          rw [f2.w p hp, f2.jb p hp]
        rw [this]
        unfold ufull
        ring
      · have h1 := abs_add_le (e c) (e2 c)
        have h2 := g3 c
        have h3 := f5 c
        push_cast
        linarith
      · by_cases ec : e c = 0
        · simp only [ec, zero_add] at hc
          exact fun hh => f6 c hc (g0 c hh)
        · exact g4 c ec
    · have : j = s1.lenl := by omega
      subst this
      refine ⟨g1, e, g2, fun c => (g3 c).trans ?_, g4⟩
      have : ((s1.lenl : ℕ) : R) ≤ i := by exact_mod_cast hll
      exact mul_le_mul_of_nonneg_right this ht

theorem twClear_spec {n i : ℕ} {s : TW R} (h : TInv n i s.lenl s) :
    Ok (twClear i s) fun iw => iw.size = n ∧ ∀ c, c < n → iw.get c = -1 := by
  have hi := h.hi
  have hlu := h.lu
  have hjs := h.jsz
  have his := h.isz
  unfold twClear
  simp only [Ok_bind, Ok_wr]
  refine ⟨by omega, ?_⟩
  refine Ok_loop_le (fun m (iw : Arr ℤ) => iw.size = n ∧ ∀ c, c < n → iw.get c ≠ -1 → ∃ p, i + m < p ∧ p ≤ i + s.lenu ∧ s.jbuf.get p = c)
    (Nat.zero_le _) ⟨by simpa using his, fun c hc hcm => ?_⟩ ?_ ?_
  · simp only [Arr.set_get] at hcm
    by_cases e : c = i
    · rw [if_pos e] at hcm; exact absurd rfl hcm
    · rw [if_neg e] at hcm
      obtain ⟨p, h1, h2, h3, h4⟩ := h.mark c hc hcm
      refine ⟨p, ?_, ?_, h4⟩
      · rcases h2 with h2 | h2
        · omega
        · rcases Nat.eq_or_lt_of_le h2.1 with a | a
          · exact absurd (by rw [← h4, ← a, h.diag]) e
          · omega
      · rcases h2 with h2 | h2 <;> omega
  · rintro m iw - hm ⟨g1, g2⟩
    have hu := h.up (i + m + 1) (by omega) (by omega)
    simp only [Ok_bind, Ok_rd, Ok_wr]
    refine ⟨by omega, by omega, by simpa using g1, fun c hc hcm => ?_⟩
    simp only [Arr.set_get] at hcm
    by_cases e : c = s.jbuf.get (i + m + 1)
    · rw [if_pos e] at hcm; exact absurd rfl hcm
    · rw [if_neg e] at hcm
      obtain ⟨p, h1, h2, h3⟩ := g2 c hc hcm
      refine ⟨p, ?_, h2, h3⟩
      have : p ≠ i + m + 1 := by rintro rfl; exact e h3.symm
      omega
  · rintro iw ⟨g1, g2⟩
    refine ⟨g1, fun c hc => ?_⟩
    by_contra hcm
    obtain ⟨p, h1, h2, -⟩ := g2 c hc hcm
    omega

end field
end Lis
