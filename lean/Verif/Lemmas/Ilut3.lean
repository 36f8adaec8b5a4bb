import Verif.Lemmas.Ilut2
import Verif.Spec.Ilut

/-!
# ILUT: selection of the elements of a row, and the whole factorization
-/

namespace Lis
open Finset
variable {R : Type}

theorem PermutesRange.lt {m : ℕ} {g : Equiv.Perm ℕ} (hg : PermutesRange 0 ((m : ℤ) - 1) g) {k : ℕ} (hk : k < m) : g k < m := by
  by_contra hc
  have := hg (g k) (by omega)
  have := g.injective this
  omega

theorem PermutesRange.symm {m : ℕ} {g : Equiv.Perm ℕ} (hg : PermutesRange 0 ((m : ℤ) - 1) g) : PermutesRange 0 ((m : ℤ) - 1) g.symm := by
  intro k hk
  rw [Equiv.symm_apply_eq]
  exact (hg k hk).symm

section field
variable [Field R] [LinearOrder R] [IsStrictOrderedRing R]

theorem twKeep_spec {n : ℕ} (junkI : ℕ → ℕ) (junkV : ℕ → R) (lfil : ℕ) {off m : ℕ} (hm : off + m ≤ n) {jbuf : Arr ℕ} {w wn : Arr R} {iw : Arr ℤ}
    (hj : jbuf.size = n) (hw : n ≤ w.size) (hwn : wn.size = n) (hz : iw.size = n) (hiw : ∀ c, c < n → iw.get c = -1) :
    Ok (twKeep junkI junkV lfil off m jbuf w wn iw) fun r => r.1.size = min lfil m ∧ r.2.1.size = min lfil m ∧
      r.2.2.1.size = n ∧ r.2.2.2.size = n ∧ (∀ c, c < n → r.2.2.2.get c = -1) ∧
      ∃ sel : ℕ → ℕ, (∀ t, t < min lfil m → off ≤ sel t ∧ sel t < off + m ∧ r.1.get t = jbuf.get (sel t) ∧ r.2.1.get t = w.get (sel t)) ∧
        (∀ t u, t < u → u < min lfil m → sel t < sel u) ∧
        ∀ p, off ≤ p → p < off + m → (∀ t, t < min lfil m → sel t ≠ p) → ∀ t, t < min lfil m → |w.get (sel t)| ≤ |w.get p| := by
  obtain ⟨len, hlen⟩ : ∃ len, len = min lfil m := ⟨_, rfl⟩
  unfold twKeep
  rw [← hlen]
  have hlm : len ≤ m := by omega
  rw [Ok_bind]
  refine Ok_loop_le (fun k (q : Arr R × Arr ℤ) => q.1.size = n ∧ q.2.size = n ∧
      (∀ t, t < k → q.1.get t = |w.get (off + t)| ∧ q.2.get t = ((off + t : ℕ) : ℤ)) ∧
      ∀ t, k ≤ t → t < n → q.2.get t = -1) (Nat.zero_le _) ⟨hwn, hz, fun t ht => by omega, fun t _ ht => hiw t ht⟩ ?_ ?_
  · rintro k ⟨a, b⟩ - hk ⟨g1, g2, g3, g4⟩
    simp only at g1 g2 g3 g4
    simp only [Ok_bind, Ok_rd, Ok_wr, Ok_pure]
    refine ⟨by omega, by omega, by omega, by simpa using g1, by simpa using g2, fun t ht => ?_, fun t h1 h2 => ?_⟩
    · simp only [Arr.set_get]
      by_cases e : t = k
      · rw [if_pos e, if_pos e, e]; exact ⟨rfl, rfl⟩
      · rw [if_neg e, if_neg e]; exact g3 t (by omega)
    · simp only [Arr.set_get]
      rw [if_neg (by omega)]
      exact g4 t (by omega) h2
  rintro ⟨wn0, iw0⟩ ⟨g1, g2, g3, g4⟩
  simp only at g1 g2 g3 g4
  simp only [Ok_bind]
  refine (lisSortDi_spec (fun x : R => x) 0 ((m : ℤ) - 1) (wn0, iw0) (le_refl _) (by simp only; omega) (by simp only; omega)).mono ?_
  rintro ⟨wn1, iw1⟩ ⟨g, hg, ⟨s1, s2⟩, ⟨s3, s4⟩, s5⟩
  simp only at s1 s2 s3 s4 s5
  refine (lisSortI_spec 0 ((len : ℤ) - 1) iw1 (le_refl _) (by omega)).mono ?_
  rintro iw2 ⟨g', hg', ⟨r1, r2⟩, r3⟩
  have hsel : ∀ t, t < len → g (g' t) < m := fun t ht => hg.lt (lt_of_lt_of_le (hg'.lt ht) hlm)
  have hv : ∀ t, t < len → iw2.get t = ((off + g (g' t) : ℕ) : ℤ) := fun t ht => by
    rw [r2, s4]
    exact (g3 _ (hsel t ht)).2
  refine Ok_loop_le (fun k (r : Arr ℕ × Arr R) => r.1.size = len ∧ r.2.size = len ∧
      ∀ t, t < k → r.1.get t = jbuf.get (off + g (g' t)) ∧ r.2.get t = w.get (off + g (g' t))) (Nat.zero_le _)
    ⟨rfl, rfl, fun t ht => by omega⟩ ?_ ?_
  · rintro k ⟨a, b⟩ - hk ⟨f1, f2, f3⟩
    simp only at f1 f2 f3
    have h1 := hv k hk
    have h2 := hsel k hk
    have h3 : (iw2.get k).toNat = off + g (g' k) := by rw [h1]; exact Int.toNat_natCast _
    simp only [Ok_bind, Ok_rd, Ok_rdI, Ok_wr, Ok_pure, h3]
    refine ⟨by omega, by omega, by omega, by omega, by omega, by omega, by omega, by simpa using f1, by simpa using f2, fun t ht => ?_⟩
    simp only [Arr.set_get]
    by_cases e : t = k
    · rw [if_pos e, if_pos e, e]; exact ⟨rfl, rfl⟩
    · rw [if_neg e, if_neg e]; exact f3 t (by omega)
  rintro ⟨idx, val⟩ ⟨f1, f2, f3⟩
  simp only at f1 f2 f3
  refine Ok_loop_le (fun k (q : Arr ℤ) => q.size = n ∧ (∀ t, t < k → q.get t = -1) ∧ ∀ t, m ≤ t → t < n → q.get t = -1) (Nat.zero_le _)
    ⟨by omega, fun t ht => by omega, fun t h1 h2 => ?_⟩ ?_ ?_
  · rw [r2, s4, hg' t (by omega), hg t (by omega)]
    exact g4 t h1 h2
  · rintro k q - hk ⟨q1, q2, q3⟩
    rw [Ok_wr]
    refine ⟨by omega, by simpa using q1, fun t ht => ?_, fun t h1 h2 => ?_⟩
    · simp only [Arr.set_get]
      split_ifs with e
      · rfl
      · exact q2 t (by omega)
    · simp only [Arr.set_get]
      split_ifs with e
      · rfl
      · exact q3 t h1 h2
  rintro q ⟨q1, q2, q3⟩
  simp only [Ok_pure]
  refine ⟨f1, f2, by omega, q1, fun c hc => ?_, fun t => off + g (g' t), fun t ht => ⟨by simp only; omega, ?_, (f3 t ht).1, (f3 t ht).2⟩, ?_, ?_⟩
  · rcases Nat.lt_or_ge c m with a | a
    · exact q2 c a
    · exact q3 c a hc
  · have := hsel t ht; simp only; omega
  · intro t u htu hu
    have h1 := r3 t u (by omega) (by omega) (by omega)
    rw [hv t (by omega), hv u hu] at h1
    have h2 : g (g' t) ≠ g (g' u) := fun he => by
      have := g'.injective (g.injective he)
      omega
    simp only
    omega
  · intro p p1 p2 hns t ht
    obtain ⟨k, hk⟩ : ∃ k, k = g.symm (p - off) := ⟨_, rfl⟩
    have hkm : k < m := by rw [hk]; exact hg.symm.lt (by omega)
    have hgk : g k = p - off := by rw [hk, Equiv.apply_symm_apply]
    have hkl : len ≤ k := by
      by_contra hc
      have h1 := hg'.symm.lt (k := k) (by omega)
      refine hns _ h1 ?_
      simp only [Equiv.apply_symm_apply]
      omega
    have h1 := s5 (g' t) k (by omega) (by have := hg'.lt ht; omega) (by omega)
    rw [s2, s2, (g3 _ (hsel t ht)).1, hgk, (g3 (p - off) (by omega)).1, show off + (p - off) = p by omega] at h1
    exact h1

theorem sel_full {sel : ℕ → ℕ} {off m : ℕ} (h1 : ∀ t, t < m → off ≤ sel t ∧ sel t < off + m) (h2 : ∀ t u, t < u → u < m → sel t < sel u)
    {t : ℕ} (ht : t < m) : sel t = off + t := by
  have a : ∀ t, t < m → off + t ≤ sel t := by
    intro t
    induction t with
    | zero => intro ht; exact (h1 0 ht).1
    | succ t ih =>
      intro ht
      have := ih (by omega)
      have := h2 t (t + 1) (by omega) ht
      omega
  have b : ∀ d t, t + d + 1 = m → sel t < off + m - d := by
    intro d
    induction d with
    | zero => intro t ht; have := (h1 t (by omega)).2; omega
    | succ d ih =>
      intro t ht
      have := ih (t + 1) (by omega)
      have := h2 t (t + 1) (by omega) (by omega)
      omega
  have h3 := a t ht
  have h4 := b (m - t - 1) t (by omega)
  omega

theorem twTol_spec {A : Csr R} (hA : A.WF) {i : ℕ} (hi : i < A.n) (tol : R) : Ok (twTol tol A i) fun t => t = tol * rowMean A i := by
  have hps := hA.ptr.size
  have hm := hA.ptr.mono i hi
  have hle := hA.ptr.le_nnz (i := i + 1) (by omega)
  have hvs := hA.vsz
  unfold twTol
  simp only [Ok_bind, Ok_rd]
  refine ⟨by omega, by omega, ?_⟩
  refine Ok_loop_le (fun k (t : R) => t = ∑ k ∈ Ico (A.ptr.get i) k, |A.value.get k|) hm (by simp) ?_ ?_
  · rintro k t h1 h2 rfl
    simp only [Ok_bind, Ok_rd, Ok_pure]
    exact ⟨by omega, (sum_Ico_succ_top h1 _).symm⟩
  · rintro t rfl
    rw [Ok_pure]
    rfl

/-- row `k` is the same in both -/
def IluMat.SameRow (M M' : IluMat R) (k : ℕ) : Prop := M'.nnz.get k = M.nnz.get k ∧ M'.index k = M.index k ∧ M'.value k = M.value k

theorem IluMat.SameRow.entry {M M' : IluMat R} {k : ℕ} (h : M.SameRow M' k) (c : ℕ) : M'.entry k c = M.entry k c := by
  obtain ⟨h1, h2, h3⟩ := h
  unfold IluMat.entry
  rw [h1, h2, h3]

theorem IluMat.SameRow.rowOk {M M' : IluMat R} {k a b : ℕ} (h : M.SameRow M' k) (hr : M.RowOk a b k) : M'.RowOk a b k := by
  obtain ⟨h1, h2, h3⟩ := h
  obtain ⟨a1, a2, a3, a4⟩ := hr
  constructor
  · rw [h1, h2]; exact a1
  · rw [h1, h3]; exact a2
  · rw [h1, h2]; exact a3
  · rw [h1, h2]; exact a4

theorem IluMat.SameRow.keeps {M M' : IluMat R} {k lfil : ℕ} {x : ℕ → R} (h : M.SameRow M' k) (hr : KeepsSmallest lfil x M k) :
    KeepsSmallest lfil x M' k := by
  obtain ⟨h1, h2, h3⟩ := h
  obtain ⟨a1, a2, a3, a4⟩ := hr
  constructor
  · rw [h1]; exact a1
  · rw [h1, h2]; exact a2
  · rw [h1, h2, h3]; exact a3
  · unfold IluMat.Has at a4 ⊢
    rw [h1, h2, h3]; exact a4

theorem IluMat.setRow_spec (M : IluMat R) {n i : ℕ} (hn : M.nnz.size = n) (hi : i < n) (len : ℕ) (idx : Arr ℕ) (val : Arr R) :
    Ok (M.setRow i len idx val) fun M' => M'.nnz.size = n ∧ (∀ k, k < i → M.SameRow M' k) ∧
      M'.nnz.get i = len ∧ M'.index i = idx ∧ M'.value i = val := by
  unfold IluMat.setRow
  simp only [Ok_bind, Ok_wr, Ok_pure]
  refine ⟨by omega, by simpa using hn, fun k hk => ⟨?_, ?_, ?_⟩, by simp, by simp, by simp⟩
  · simp only [Arr.set_get]; rw [if_neg (by omega)]
  · simp only; rw [if_neg (by omega)]
  · simp only; rw [if_neg (by omega)]

/-- the row stored by `twKeep` -/
theorem keeps_of_sel {M : IluMat R} {i lfil off m : ℕ} {jbuf : Arr ℕ} {w : Arr R} {sel : ℕ → ℕ} {x : ℕ → R}
    (hnz : M.nnz.get i = min lfil m)
    (h1 : ∀ t, t < min lfil m → off ≤ sel t ∧ sel t < off + m ∧ (M.index i).get t = jbuf.get (sel t) ∧ (M.value i).get t = w.get (sel t))
    (h2 : ∀ t u, t < u → u < min lfil m → sel t < sel u)
    (h3 : ∀ p, off ≤ p → p < off + m → (∀ t, t < min lfil m → sel t ≠ p) → ∀ t, t < min lfil m → |w.get (sel t)| ≤ |w.get p|)
    (hinj : ∀ p q, off ≤ p → p < off + m → off ≤ q → q < off + m → jbuf.get p = jbuf.get q → p = q)
    (hx : ∀ p, off ≤ p → p < off + m → x (jbuf.get p) = w.get p)
    (hx0 : ∀ c, x c ≠ 0 → ∃ p, off ≤ p ∧ p < off + m ∧ jbuf.get p = c) : KeepsSmallest lfil x M i := by
  constructor
  · rw [hnz]; exact min_le_left _ _
  · intro t u ht hu he
    rw [hnz] at ht hu
    obtain ⟨t1, t2, t3, -⟩ := h1 t ht
    obtain ⟨u1, u2, u3, -⟩ := h1 u hu
    have hs := hinj _ _ t1 t2 u1 u2 (by rw [← t3, ← u3, he])
    rcases Nat.lt_trichotomy t u with a | a | a
    · have := h2 t u a hu; omega
    · exact a
    · have := h2 u t a ht; omega
  · intro t ht
    rw [hnz] at ht
    obtain ⟨t1, t2, t3, t4⟩ := h1 t ht
    rw [t3, t4, hx _ t1 t2]
  · intro c hc hxc
    obtain ⟨p, p1, p2, p3⟩ := hx0 c hxc
    have hns : ∀ t, t < min lfil m → sel t ≠ p := fun t ht he => hc ⟨t, by omega, by rw [(h1 t ht).2.2.1, he, p3]⟩
    refine ⟨?_, fun t ht => ?_⟩
    · rw [hnz]
      by_contra hl
      have hm : min lfil m = m := by omega
      rw [hm] at hns h1 h2
      have := sel_full (t := p - off) (fun t ht => ⟨(h1 t ht).1, (h1 t ht).2.1⟩) h2 (by omega)
      exact hns (p - off) (by omega) (by omega)
    · rw [hnz] at ht
      rw [(h1 t ht).2.2.2, ← p3, hx p p1 p2]
      exact h3 p p1 p2 hns t ht

/-- state between rows -/
structure TRows (A : Csr R) (tol : R) (lfil i : ℕ) (st : TSt R) : Prop where
  jsz : st.jbuf.size = A.n
  wsz : A.n ≤ st.w.size
  wnsz : st.wn.size = A.n
  isz : st.iw.size = A.n
  iw : ∀ c, c < A.n → st.iw.get c = -1
  nl : st.F.L.nnz.size = A.n
  nu : st.F.U.nnz.size = A.n
  d : A.n ≤ st.F.D.size
  rowL : ∀ k, k < i → st.F.L.RowOk 0 k k
  rowU : ∀ k, k < i → st.F.U.RowOk (k + 1) A.n k
  row : ∀ k, k < i → ∃ l u e, IlutRow A tol lfil st.F k l u e

theorem rowMean_nonneg (A : Csr R) (i : ℕ) : 0 ≤ rowMean A i := by
  unfold rowMean
  exact div_nonneg (sum_nonneg fun _ _ => abs_nonneg _) (Nat.cast_nonneg _)

theorem ilutRow_spec {A : Csr R} (hA : A.WF) (hnp : A.np = A.n) (hnd : A.NoDup) {tol : R} (htol : 0 ≤ tol) (lfil : ℕ) (junkI : ℕ → ℕ) (junkV : ℕ → R)
    {i : ℕ} (hi : i < A.n) {st : TSt R} (h : TRows A tol lfil i st) :
    Ok (ilutRow junkI junkV A tol lfil i st) (TRows A tol lfil (i + 1)) := by
  have ht : 0 ≤ tol * rowMean A i := mul_nonneg htol (rowMean_nonneg A i)
  unfold ilutRow
  simp only [Ok_bind]
  refine (twTol_spec hA hi tol).mono ?_
  rintro _ rfl
  refine (twScan_spec hA hnp hnd hi (s := ⟨st.jbuf, st.w, st.iw, 0, 0⟩) h.jsz h.wsz h.isz h.iw).mono ?_
  rintro s ⟨s1, s2, s3⟩
  refine (twWhile_spec ht h.rowU h.nu h.d s1).mono ?_
  rintro ⟨j, t⟩ ⟨t1, e, t2, t3, t4⟩
  simp only at t1 t2
  refine (twClear_spec t1).mono ?_
  rintro iw ⟨c1, c2⟩
  have hws := t1.wsz
  have hll := t1.ll
  have hlu := t1.lu
  have hdz := h.d
  simp only [Ok_rd, Ok_wr]
  refine ⟨by omega, by omega, ?_⟩
  refine (twKeep_spec junkI junkV lfil (off := 0) (m := t.lenl) (n := A.n) (by omega) t1.jsz hws h.wnsz c1 c2).mono ?_
  rintro ⟨li, lv, wn1, iw1⟩ ⟨k1, k2, k3, k4, k5, sel, k6, k7, k8⟩
  simp only at k1 k2 k3 k4 k5 k6 k7 k8
  refine (IluMat.setRow_spec st.F.L h.nl hi (min lfil t.lenl) li lv).mono ?_
  rintro L ⟨l1, l2, l3, l4, l5⟩
  refine (twKeep_spec junkI junkV lfil (off := i + 1) (m := t.lenu) (n := A.n) (by omega) t1.jsz hws k3 k4 k5).mono ?_
  rintro ⟨ui, uv, wn2, iw2⟩ ⟨m1, m2, m3, m4, m5, sel', m6, m7, m8⟩
  simp only at m1 m2 m3 m4 m5 m6 m7 m8
  refine (IluMat.setRow_spec st.F.U h.nu hi (min lfil t.lenu) ui uv).mono ?_
  rintro U ⟨u1, u2, u3, u4, u5⟩
  rw [Ok_pure]
  -- the complete rows
  obtain ⟨l, hl⟩ : ∃ l : ℕ → R, ∀ c, l c = ∑ p ∈ range t.lenl, if t.jbuf.get p = c then t.w.get p else 0 := ⟨_, fun _ => rfl⟩
  obtain ⟨u, hu⟩ : ∃ u : ℕ → R, ∀ c, u c = if i < c ∧ c < A.n then t.cur c else 0 := ⟨_, fun _ => rfl⟩
  have hl0 : ∀ c, l c ≠ 0 → ∃ p, p < t.lenl ∧ t.jbuf.get p = c := fun c hc => by
    by_contra hn
    refine hc ?_
    rw [hl]
    exact sum_eq_zero fun p hp => if_neg fun he => hn ⟨p, mem_range.1 hp, he⟩
  have hcur : ∀ c, c < A.n → t.cur c ≠ 0 → ∃ p, i ≤ p ∧ p ≤ i + t.lenu ∧ t.jbuf.get p = c ∧ t.cur c = t.w.get p := fun c hc hne => by
    have hm : t.iw.get c ≠ -1 := fun hm => hne (TW.cur_none hm)
    obtain ⟨p, p1, p2, p3, p4⟩ := t1.mark c hc hm
    rcases p2 with p2 | p2
    · omega
    · exact ⟨p, p2.1, p2.2, p4, TW.cur_some p1⟩
  have hcurL : ∀ c, c < i → t.cur c = 0 := fun c hc => by
    by_contra hne
    obtain ⟨p, p1, p2, p3, -⟩ := hcur c (by omega) hne
    rcases Nat.eq_or_lt_of_le p1 with a | a
    · rw [← a, t1.diag] at p3; omega
    · have := (t1.up p a p2).1; omega
  have hcurI : t.cur i = t.w.get i := TW.cur_some t1.markI
  have hxl : ∀ p, p < t.lenl → l (t.jbuf.get p) = t.w.get p := fun p hp => by
    rw [hl, sum_eq_single p]
    · rw [if_pos rfl]
    · intro q hq hne
      exact if_neg fun he => hne (t1.injL (mem_range.1 hq) hp he)
    · intro hn; exact absurd (mem_range.2 hp) hn
  have hxu : ∀ p, i < p → p ≤ i + t.lenu → u (t.jbuf.get p) = t.w.get p := fun p p1 p2 => by
    rw [hu, if_pos (t1.up p p1 p2)]
    exact TW.cur_some (t1.markP p (.inr ⟨by omega, p2⟩) (by omega))
  have hlow : ∀ c, l c ≠ 0 → c < i := fun c hc => by
    obtain ⟨p, p1, p2⟩ := hl0 c hc
    have := t1.low p p1
    omega
  have hup : ∀ c, u c ≠ 0 → i < c ∧ c < A.n := fun c hc => by
    by_contra hn
    exact hc (by rw [hu, if_neg hn])
  have kL : KeepsSmallest lfil l L i := by
    refine keeps_of_sel (off := 0) (m := t.lenl) (jbuf := t.jbuf) (w := t.w) (sel := sel) l3 ?_ k7 k8 ?_ ?_ ?_
    · rw [l4, l5]; exact k6
    · intro p q _ hp _ hq he; exact t1.injL (by omega) (by omega) he
    · intro p _ hp; exact hxl p (by omega)
    · intro c hc
      obtain ⟨p, p1, p2⟩ := hl0 c hc
      exact ⟨p, by omega, by omega, p2⟩
  have kU : KeepsSmallest lfil u U i := by
    refine keeps_of_sel (off := i + 1) (m := t.lenu) (jbuf := t.jbuf) (w := t.w) (sel := sel') u3 ?_ m7 m8 ?_ ?_ ?_
    · rw [u4, u5]; exact m6
    · intro p q p1 p2 q1 q2 he; exact t1.injU (by omega) (by omega) (by omega) (by omega) he
    · intro p p1 p2; exact hxu p (by omega) (by omega)
    · intro c hc
      obtain ⟨b1, b2⟩ := hup c hc
      rw [hu, if_pos ⟨b1, b2⟩] at hc
      obtain ⟨p, p1, p2, p3, -⟩ := hcur c b2 hc
      refine ⟨p, ?_, by omega, p3⟩
      rcases Nat.eq_or_lt_of_le p1 with a | a
      · rw [← a, t1.diag] at p3; omega
      · omega
  refine ⟨t1.jsz, hws, m3, m4, m5, l1, u1, by simpa using hdz, fun k hk => ?_, fun k hk => ?_, fun k hk => ?_⟩
  · rcases Nat.lt_or_ge k i with a | a
    · exact (l2 k a).rowOk (h.rowL k a)
    · rw [show k = i by omega]
      refine ⟨by simp only; rw [l3, l4, k1], by simp only; rw [l3, l5, k2], fun q hq => ?_, kL.inj⟩
      simp only at hq ⊢
      rw [l3] at hq
      obtain ⟨a1, a2, a3, -⟩ := k6 q hq
      rw [l4, a3]
      exact ⟨Nat.zero_le _, t1.low _ (by omega)⟩
  · rcases Nat.lt_or_ge k i with a | a
    · exact (u2 k a).rowOk (h.rowU k a)
    · rw [show k = i by omega]
      refine ⟨by simp only; rw [u3, u4, m1], by simp only; rw [u3, u5, m2], fun q hq => ?_, kU.inj⟩
      simp only at hq ⊢
      rw [u3] at hq
      obtain ⟨a1, a2, a3, -⟩ := m6 q hq
      rw [u4, a3]
      have := t1.up (sel' q) (by omega) (by omega)
      exact ⟨this.1, this.2⟩
  · rcases Nat.lt_or_ge k i with a | a
    · obtain ⟨l', u', e', r⟩ := h.row k a
      refine ⟨l', u', e', r.low, r.up, fun hd c hc => ?_, r.err, r.fill, (l2 k a).keeps r.keepL, (u2 k a).keeps r.keepU⟩
      have hdk : ∀ q, q ≤ k → (st.F.D.set i (1 / t.w.get i)).get q = st.F.D.get q := fun q hq => by
        simp only [Arr.set_get]; rw [if_neg (by omega)]
      simp only at hd ⊢
      rw [r.elim (fun q hq => by have := hd q hq; rwa [hdk q (by omega)] at this) c hc, hdk k (le_refl _)]
      congr 3
      refine sum_congr rfl fun q hq => ?_
      rw [mem_range] at hq
      rw [hdk q (by omega), (u2 q (by omega)).entry]
    · rw [show k = i by omega]
      refine ⟨l, u, e, hlow, hup, fun hd c hc => ?_, t3, fun c hc => ⟨?_, fun hs => t4 c hc (s3 c hs)⟩, kL, kU⟩
      · have hdk : ∀ q, q < i → (st.F.D.set i (1 / t.w.get i)).get q = st.F.D.get q := fun q hq => by
          simp only [Arr.set_get]; rw [if_neg (by omega)]
        simp only at hd ⊢
        have hm := t2 (fun q hq => by have := hd q hq; rwa [hdk q hq] at this) c hc
        rw [s2 c hc] at hm
        have e1 : ∑ q ∈ range i, l q * ((if q = c then ((st.F.D.set i (1 / t.w.get i)).get q)⁻¹ else 0) + U.entry q c) =
            ∑ p ∈ range t.lenl, t.w.get p * ufull st.F.U st.F.D (t.jbuf.get p) c := by
          have : ∀ q ∈ range i, l q * ((if q = c then ((st.F.D.set i (1 / t.w.get i)).get q)⁻¹ else 0) + U.entry q c) =
              ∑ p ∈ range t.lenl, if t.jbuf.get p = q then t.w.get p * ufull st.F.U st.F.D q c else 0 := by
            intro q hq
            rw [mem_range] at hq
            rw [hdk q hq, (u2 q hq).entry, hl, sum_mul]
            refine sum_congr rfl fun p _ => ?_
            split_ifs with g1 g2
            · unfold ufull; rw [if_pos g2.symm]; ring
            · unfold ufull; rw [if_neg (Ne.symm g2)]; ring
            · rw [zero_mul]
            · rw [zero_mul]
          rw [sum_congr rfl this, sum_comm]
          refine sum_congr rfl fun p hp => ?_
          rw [sum_ite_eq, if_pos (mem_range.2 (t1.low p (mem_range.1 hp)))]
        rw [e1, hm]
        have e2 : t.cur c = (if c = i then ((st.F.D.set i (1 / t.w.get i)).get i)⁻¹ else 0) + u c := by
          rw [Arr.set_get_self, hu, one_div, inv_inv]
          rcases Nat.lt_trichotomy c i with a | a | a
          · rw [hcurL c a, if_neg (by omega), if_neg (by omega), add_zero]
          · rw [if_pos a, if_neg (by omega), a, hcurI, add_zero]
          · rw [if_neg (by omega), if_pos ⟨a, hc⟩, zero_add]
        rw [e2]
        ring
      · rintro rfl
        exact t4 c hc ⟨c, .inr ⟨le_refl _, by omega⟩, s1.diag⟩

theorem createIlut_rows {A : Csr R} (hA : A.WF) (hnp : A.np = A.n) (hnd : A.NoDup) {tol : R} (htol : 0 ≤ tol) (lfil : ℕ)
    (junkI : ℕ → ℕ) (junkV : ℕ → R) (junkW : ℕ → ℤ) {junkD : Arr R} (hD : A.n ≤ junkD.size) :
    Ok (createIlutCsr junkI junkV junkW A tol lfil junkD) fun F => F.WF A.n ∧
      ∀ i, i < A.n → ∃ l u e, IlutRow A tol lfil F i l u e := by
  unfold createIlutCsr
  simp only [Ok_bind]
  refine Ok_loop_le (fun k (q : Arr ℤ) => q.size = A.n ∧ ∀ t, t < k → q.get t = -1) (Nat.zero_le _)
    ⟨rfl, fun t ht => by omega⟩ ?_ ?_
  · rintro k q - hk ⟨q1, q2⟩
    rw [Ok_wr]
    refine ⟨by omega, by simpa using q1, fun t ht => ?_⟩
    simp only [Arr.set_get]
    split_ifs with e
    · rfl
    · exact q2 t (by omega)
  rintro iw ⟨q1, q2⟩
  refine Ok_loop_le (fun i st => TRows A tol lfil i st) (Nat.zero_le _) ?_ (fun i st _ hi h => ilutRow_spec hA hnp hnd htol lfil junkI junkV hi h) ?_
  · exact ⟨rfl, Nat.le_succ _, rfl, q1, q2, rfl, rfl, hD, fun k hk => by omega, fun k hk => by omega, fun k hk => by omega⟩
  · intro st h
    rw [Ok_pure]
    refine ⟨⟨h.nl, h.nu, fun i hi => (h.rowL i hi).isz, fun i hi => (h.rowU i hi).isz, fun i hi => (h.rowL i hi).vsz,
      fun i hi => (h.rowU i hi).vsz, h.d, fun i p hi hp => ((h.rowL i hi).rng p hp).2, fun i p hi hp => ?_⟩, h.row⟩
    exact (h.rowU i hi).rng p hp

end field
end Lis
