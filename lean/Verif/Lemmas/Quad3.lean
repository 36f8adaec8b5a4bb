import Verif.Lemmas.Quad2

namespace Lis
variable {K : Type} [Field K] [LinearOrder K] [IsStrictOrderedRing K] [FloorRing K] {p : ℕ} {emin : ℤ} {rnd : K → K}

theorem two_zpow_rel (k : ℤ) (p : ℕ) : (2 : K) ^ (k - 1) = 2 ^ (-(p : ℤ)) * 2 ^ (k + p - 1) := by
  rw [← zpow_add₀ (by norm_num)]; congr 1; ring

/-- relative error of rounding, no underflow -/
theorem Nearest.rel (N : Nearest p emin rnd) (hp : 1 ≤ p) {x : K} (hx : 2 ^ (emin + p - 1) ≤ |x|) :
    |rnd x - x| ≤ 2 ^ (-(p : ℤ)) * |x| := by
  have h0 : 0 < |x| := lt_of_lt_of_le (two_zpow_pos _) hx
  obtain ⟨k', h1, h2⟩ := exists_scale h0
  obtain ⟨k, rfl⟩ : ∃ k : ℤ, k' = k + p - 1 := ⟨k' - p + 1, by ring⟩
  rw [sub_add_cancel] at h2
  rcases le_or_gt emin k with h | h
  · refine (N.err hp h h2).trans ?_
    rw [two_zpow_rel k p]
    exact mul_le_mul_of_nonneg_left h1.le (two_zpow_pos _).le
  · have h3 : |x| ≤ 2 ^ (emin + p - 1) := h2.trans (two_zpow_le (by omega))
    have h4 : |x| = 2 ^ (emin + p - 1) := le_antisymm h3 hx
    have f : IsFloat p emin x := by
      have := isFloat_pow (K := K) hp (by omega : emin ≤ emin + p - 1)
      rw [← h4] at this
      rcases abs_choice x with e | e
      · rwa [e] at this
      · rw [e] at this
        simpa using this.neg
    rw [N.exact f, sub_self, abs_zero]
    exact mul_nonneg (two_zpow_pos _).le (abs_nonneg _)

/-- error of rounding, underflow allowed -/
theorem Nearest.relU (N : Nearest p emin rnd) (hp : 1 ≤ p) (x : K) :
    |rnd x - x| ≤ 2 ^ (-(p : ℤ)) * |x| + 2 ^ (emin - 1) := by
  rcases le_total (2 ^ (emin + p - 1)) |x| with h | h
  · exact (N.rel hp h).trans (le_add_of_nonneg_right (two_zpow_pos _).le)
  · refine (N.err hp (le_refl emin) (h.trans (two_zpow_le (by omega)))).trans (le_add_of_nonneg_left ?_)
    exact mul_nonneg (two_zpow_pos _).le (abs_nonneg _)

/-- relative error of a sum -/
theorem Nearest.rel_add (N : Nearest p emin rnd) (hp : 1 ≤ p) {a b : K} (fa : IsFloat p emin a) (fb : IsFloat p emin b) :
    |rnd (a + b) - (a + b)| ≤ 2 ^ (-(p : ℤ)) * |a + b| := by
  rcases le_total (2 ^ (emin + p - 1)) |a + b| with h | h
  · exact N.rel hp h
  · rw [N.exact (isFloat_of_grid hp (le_refl _) (fa.grid_emin.add fb.grid_emin) (h.trans (two_zpow_le (by omega)))),
      sub_self, abs_zero]
    exact mul_nonneg (two_zpow_pos _).le (abs_nonneg _)

theorem Nearest.rel_sub (N : Nearest p emin rnd) (hp : 1 ≤ p) {a b : K} (fa : IsFloat p emin a) (fb : IsFloat p emin b) :
    |rnd (a - b) - (a - b)| ≤ 2 ^ (-(p : ℤ)) * |a - b| := by
  have := N.rel_add hp fa fb.neg
  rwa [← sub_eq_add_neg] at this

/-- low part against high part -/
theorem QD.Close.rel (hp : 1 ≤ p) {q : QD K} (h : q.Close p emin) : |q.lo| ≤ 2 ^ (-(p : ℤ)) * |q.hi| := by
  obtain ⟨k, h1, h2, h3, h4⟩ := h.fhi.canon hp
  rcases h4 with rfl | h4
  · -- the high part is on the finest grid: the low part is zero
    have h5 := h.lo_le k h1 h2 h3
    have h6 : q.lo = 0 := by
      by_contra hc
      have := h.flo.grid_emin.ge hc
      have e : (2 : K) ^ k = 2 * 2 ^ (k - 1) := two_zpow_pred k
      have := two_zpow_pos (K := K) (k - 1)
      linarith
    rw [h6, abs_zero]
    exact mul_nonneg (two_zpow_pos _).le (abs_nonneg _)
  · refine (h.lo_le k h1 h2 h3).trans ?_
    rw [two_zpow_rel k p]
    exact mul_le_mul_of_nonneg_left h4 (two_zpow_pos _).le

/-- value of the error term of `LIS_QUAD_TWO_DIFF` -/
def diffErr (rnd : K → K) (a b : K) : K :=
  let s := rnd (a - b)
  let t := rnd (s - a)
  rnd (rnd (a - rnd (s - t)) - rnd (b + t))

omit [FloorRing K] in
theorem lisQuadDiv_eq (rnd sq : K → K) (C : K) (junk : QSt K) (b c : QD K) :
    lisQuadDiv (fpOf rnd sq) C junk b c =
      let tl := rnd (b.hi / c.hi)
      let m := lisQuadMulD (fpOf rnd sq) C junk c tl
      let sl := rnd (rnd (diffErr rnd b.hi m.hi - m.lo) + b.lo)
      let th := rnd (rnd (rnd (b.hi - m.hi) + sl) / c.hi)
      ⟨rnd (tl + th), fastErr rnd tl th⟩ := by
  simp only [lisQuadMulD_eq]; rfl

theorem diffErr_exact (N : Nearest p emin rnd) (hp : 3 ≤ p) {a b : K} (fa : IsFloat p emin a) (fb : IsFloat p emin b) :
    diffErr rnd a b = a - b - rnd (a - b) := by
  obtain ⟨h1, h2, h3, h4⟩ := twoSum_exact N hp fa fb.neg
  rw [← sub_eq_add_neg] at h1 h2 h3 h4
  unfold diffErr
  simp only
  have h3' : IsFloat p emin (b + rnd (rnd (a - b) - a)) := by
    have := h3.neg
    rwa [show -(-b - rnd (rnd (a - b) - a)) = b + rnd (rnd (a - b) - a) by ring] at this
  rw [N.exact h1, N.exact h2, N.exact h3']
  rw [show a - (rnd (a - b) - rnd (rnd (a - b) - a)) - (b + rnd (rnd (a - b) - a)) = a - b - rnd (a - b) by ring]
  exact N.exact h4

theorem abs_div_le {x c M : K} (hc : c ≠ 0) (h : |x| ≤ M * |c|) : |x / c| ≤ M := by
  rw [abs_div, div_le_iff₀ (abs_pos.2 hc)]; exact h

set_option maxHeartbeats 1000000 in
theorem quad_div_close (N : Nearest p emin rnd) {s : ℕ} (hs : SplitOk p s) (hp8 : 8 ≤ p) (sq : K → K) (junk : QSt K) {b c : QD K}
    (hb : b.Close p emin) (hc : c.Close p emin) (nc : 2 ^ (emin + p - 1) ≤ |c.hi|)
    (nq : 2 ^ (emin + 2 * p) ≤ |b.hi / c.hi|) (nb : 2 ^ (emin + 2 * p + 1) ≤ |b.hi|) :
    (lisQuadDiv (fpOf rnd sq) (2 ^ s + 1) junk b c).Norm p emin rnd ∧
    |(lisQuadDiv (fpOf rnd sq) (2 ^ s + 1) junk b c).val - b.val / c.val| ≤ 17 * 2 ^ (-(2 * p : ℤ)) * |b.hi / c.hi| := by
  have hp1 : 1 ≤ p := by omega
  have hch : c.hi ≠ 0 := fun h => by rw [h, abs_zero] at nc; exact absurd nc (not_le.2 (two_zpow_pos _))
  have hC : 0 < |c.hi| := abs_pos.2 hch
  obtain ⟨u, hu⟩ : ∃ u : K, u = 2 ^ (-(p : ℤ)) := ⟨_, rfl⟩
  have u0 : 0 < u := hu ▸ two_zpow_pos _
  have u1 : u ≤ 1 / 256 := by
    have : (2 : K) ^ (-(p : ℤ)) ≤ 2 ^ (-8 : ℤ) := two_zpow_le (by omega)
    rw [hu]; refine this.trans ?_; norm_num
  have uu : (2 : K) ^ (-(2 * p : ℤ)) = u * u := by rw [hu, ← zpow_add₀ (by norm_num)]; congr 1; ring
  rw [uu, lisQuadDiv_eq]
  obtain ⟨B, hB⟩ : ∃ B, B = |b.hi| := ⟨_, rfl⟩
  have B0 : 0 ≤ B := hB ▸ abs_nonneg _
  have uB : 0 ≤ u * B := mul_nonneg u0.le B0
  have uB1 : u * B ≤ B / 256 := by have := mul_le_mul_of_nonneg_right u1 B0; linarith
  have uuB0 : 0 ≤ u * u * B := mul_nonneg (mul_nonneg u0.le u0.le) B0
  have uuB : u * u * B ≤ u * B / 256 := by
    have := mul_le_mul_of_nonneg_left u1 uB
    linarith
  have uuuB : u * u * u * B ≤ u * u * B / 256 := by
    have := mul_le_mul_of_nonneg_left u1 uuB0
    linarith
  -- first quotient
  obtain ⟨tl, htl⟩ : ∃ tl, tl = rnd (b.hi / c.hi) := ⟨_, rfl⟩
  have d1 := N.rel hp1 ((two_zpow_le (by omega)).trans nq)
  rw [← htl, ← hu] at d1
  have ftl : IsFloat p emin tl := htl ▸ N.float _
  have ct : |c.hi * tl - b.hi| ≤ u * B := by
    have : c.hi * tl - b.hi = c.hi * (tl - b.hi / c.hi) := by field_simp
    rw [this, abs_mul]
    have := mul_le_mul_of_nonneg_left d1 hC.le
    refine this.trans (le_of_eq ?_)
    rw [abs_div, hB]; field_simp
  have ctB : |c.hi * tl| ≤ B + u * B := by
    have := abs_add_le (c.hi * tl - b.hi) b.hi
    rw [sub_add_cancel] at this
    rw [hB] at *; linarith
  have ctB' : B - u * B ≤ |c.hi * tl| := by
    have := abs_sub_abs_le_abs_sub b.hi (c.hi * tl)
    rw [abs_sub_comm] at this
    rw [hB] at *; linarith
  -- product
  have nt : 2 ^ (emin + p - 1) ≤ |tl| := by
    have := N.ge (isFloat_pow hp1 (by omega)) (two_zpow_pos _).le nq
    rw [← htl] at this
    exact (two_zpow_le (by omega)).trans this
  obtain ⟨m, hm⟩ : ∃ m, m = lisQuadMulD (fpOf rnd sq) (2 ^ s + 1) junk c tl := ⟨_, rfl⟩
  have hmul := quad_muld_close N hs sq junk hc ftl nc nt (by
    refine le_trans ?_ ctB'
    rw [two_zpow_succ, ← hB] at nb
    linarith)
  rw [← hm, uu] at hmul
  obtain ⟨mN, mE⟩ := hmul
  have mC := mN.close hp1 N
  have mlo := mC.rel hp1
  have blo := hb.rel hp1
  have clo := hc.rel hp1
  rw [← hu] at mlo blo clo
  rw [← hB] at blo
  have mE' : |m.val - c.val * tl| ≤ 4 * (u * u * B) := by
    refine mE.trans ?_
    have := mul_le_mul_of_nonneg_left ctB (mul_nonneg (by norm_num : (0 : K) ≤ 3) (mul_nonneg u0.le u0.le))
    linarith
  have clt : |c.lo * tl| ≤ u * B + u * u * B := by
    have h1 := mul_le_mul_of_nonneg_right clo (abs_nonneg tl)
    rw [abs_mul] at ctB ⊢
    have := mul_le_mul_of_nonneg_left ctB u0.le
    linarith
  have mval : m.val = m.hi + m.lo := rfl
  have cval : c.val = c.hi + c.lo := rfl
  have bval : b.val = b.hi + b.lo := rfl
  have mhi : |m.hi| ≤ 11 / 10 * B := by
    -- |m.hi| (1 - u) ≤ |m.val|
    have h1 : |m.hi| ≤ |m.val| + |m.lo| := by
      have := abs_sub m.val m.lo
      rwa [mval, add_sub_cancel_right, ← mval] at this
    have h2 : |m.val| ≤ B + u * B + (u * B + u * u * B) + 4 * (u * u * B) := by
      have : m.val = (m.val - c.val * tl) + c.hi * tl + c.lo * tl := by rw [cval]; ring
      rw [this]
      have := abs_add_three (m.val - c.val * tl) (c.hi * tl) (c.lo * tl)
      linarith
    have h3 := mul_le_mul_of_nonneg_right u1 (abs_nonneg m.hi)
    linarith
  have mlo' : |m.lo| ≤ 11 / 10 * (u * B) := by
    refine mlo.trans ?_
    have := mul_le_mul_of_nonneg_left mhi u0.le
    linarith
  -- remainder
  have X1 : |b.val - c.val * tl| ≤ 301 / 100 * (u * B) := by
    have : b.val - c.val * tl = -(c.hi * tl - b.hi) + b.lo + -(c.lo * tl) := by rw [bval, cval]; ring
    rw [this]
    have h := abs_add_three (-(c.hi * tl - b.hi)) b.lo (-(c.lo * tl))
    rw [abs_neg, abs_neg] at h
    linarith
  have D1 : |b.hi - m.hi| ≤ 52 / 10 * (u * B) := by
    have : b.hi - m.hi = (b.val - c.val * tl) + -(m.val - c.val * tl) + (m.lo - b.lo) := by rw [bval, mval]; ring
    rw [this]
    have h := abs_add_three (b.val - c.val * tl) (-(m.val - c.val * tl)) (m.lo - b.lo)
    have h' := abs_sub m.lo b.lo
    rw [abs_neg] at h
    linarith
  have se := diffErr_exact N (by omega) hb.fhi mC.fhi
  have r0 := N.rel_sub hp1 hb.fhi mC.fhi
  rw [← hu] at r0
  have fs : IsFloat p emin (rnd (b.hi - m.hi)) := N.float _
  obtain ⟨sh, hsh⟩ : ∃ sh, sh = rnd (b.hi - m.hi) := ⟨_, rfl⟩
  obtain ⟨s0, hs0⟩ : ∃ s0, s0 = diffErr rnd b.hi m.hi := ⟨_, rfl⟩
  have fs0 : IsFloat p emin s0 := by rw [hs0]; exact N.float _
  obtain ⟨s1, hs1⟩ : ∃ s1, s1 = rnd (s0 - m.lo) := ⟨_, rfl⟩
  obtain ⟨s2, hs2⟩ : ∃ s2, s2 = rnd (s1 + b.lo) := ⟨_, rfl⟩
  obtain ⟨w, hw⟩ : ∃ w, w = rnd (sh + s2) := ⟨_, rfl⟩
  obtain ⟨th, hth⟩ : ∃ th, th = rnd (w / c.hi) := ⟨_, rfl⟩
  have fs1 : IsFloat p emin s1 := by rw [hs1]; exact N.float _
  have fs2 : IsFloat p emin s2 := by rw [hs2]; exact N.float _
  have fth : IsFloat p emin th := by rw [hth]; exact N.float _
  rw [← hsh] at fs
  simp only [← htl, ← hm, ← hsh, ← hs0, ← hs1, ← hs2, ← hw, ← hth]
  rw [← hs0, ← hsh] at se
  rw [← hsh] at r0
  have s0b : |s0| ≤ 52 / 10 * (u * u * B) := by
    rw [se, abs_sub_comm]
    refine r0.trans ?_
    have := mul_le_mul_of_nonneg_left D1 u0.le
    linarith
  have shb : |sh| ≤ 53 / 10 * (u * B) := by
    have := abs_add_le (sh - (b.hi - m.hi)) (b.hi - m.hi)
    rw [sub_add_cancel] at this
    have h2 := mul_le_mul_of_nonneg_left D1 u0.le
    linarith
  have r1 := N.rel_sub hp1 fs0 mC.flo
  rw [← hs1, ← hu] at r1
  have s1a : |s0 - m.lo| ≤ 113 / 100 * (u * B) := by
    have := abs_sub s0 m.lo
    linarith
  have s1e : |s1 - (s0 - m.lo)| ≤ 113 / 100 * (u * u * B) := by
    refine r1.trans ?_
    have := mul_le_mul_of_nonneg_left s1a u0.le
    linarith
  have s1b : |s1| ≤ 114 / 100 * (u * B) := by
    have := abs_add_le (s1 - (s0 - m.lo)) (s0 - m.lo)
    rw [sub_add_cancel] at this
    linarith
  have r2 := N.rel_add hp1 fs1 hb.flo
  rw [← hs2, ← hu] at r2
  have s2a : |s1 + b.lo| ≤ 214 / 100 * (u * B) := by
    have := abs_add_le s1 b.lo
    linarith
  have s2e : |s2 - (s1 + b.lo)| ≤ 214 / 100 * (u * u * B) := by
    refine r2.trans ?_
    have := mul_le_mul_of_nonneg_left s2a u0.le
    linarith
  -- `sh + s2` is close to the remainder
  have Y : sh + s2 - (b.val - c.val * tl) = (s2 - (s1 + b.lo)) + (s1 - (s0 - m.lo)) + -(m.val - c.val * tl) := by
    rw [se, bval, mval]; ring
  have Yb : |sh + s2 - (b.val - c.val * tl)| ≤ 728 / 100 * (u * u * B) := by
    rw [Y]
    have := abs_add_three (s2 - (s1 + b.lo)) (s1 - (s0 - m.lo)) (-(m.val - c.val * tl))
    rw [abs_neg] at this
    linarith
  have Z1 : |sh + s2| ≤ 305 / 100 * (u * B) := by
    have := abs_add_le (sh + s2 - (b.val - c.val * tl)) (b.val - c.val * tl)
    rw [sub_add_cancel] at this
    linarith
  have r3 := N.rel_add hp1 fs fs2
  rw [← hw, ← hu] at r3
  have we : |w - (sh + s2)| ≤ 305 / 100 * (u * u * B) := by
    refine r3.trans ?_
    have := mul_le_mul_of_nonneg_left Z1 u0.le
    linarith
  have wX : |w - (b.val - c.val * tl)| ≤ 1033 / 100 * (u * u * B) := by
    have := abs_add_le (w - (sh + s2)) (sh + s2 - (b.val - c.val * tl))
    rw [sub_add_sub_cancel] at this
    linarith
  have wb : |w| ≤ 31 / 10 * (u * B) := by
    have := abs_add_le (w - (sh + s2)) (sh + s2)
    rw [sub_add_cancel] at this
    linarith
  -- quotient
  obtain ⟨Q, hQ⟩ : ∃ Q, Q = |b.hi / c.hi| := ⟨_, rfl⟩
  rw [← hQ] at nq d1 ⊢
  have QC : B = Q * |c.hi| := by rw [hQ, hB, abs_div, div_mul_cancel₀ _ hC.ne']
  have Q0 : 0 ≤ Q := hQ ▸ abs_nonneg _
  have wq : |w / c.hi| ≤ 31 / 10 * (u * Q) := abs_div_le hch (by rw [QC] at wb; linarith)
  have xq : |(w - (b.val - c.val * tl)) / c.hi| ≤ 1033 / 100 * (u * u * Q) := abs_div_le hch (by rw [QC] at wX; linarith)
  have XQ : |(b.val - c.val * tl) / c.hi| ≤ 301 / 100 * (u * Q) := abs_div_le hch (by rw [QC] at X1; linarith)
  have uf : (2 : K) ^ (emin - 1) ≤ 1 / 2 * (u * u * Q) := by
    have h1 : (2 : K) ^ emin = u * u * 2 ^ (emin + 2 * p) := by
      rw [← uu, ← zpow_add₀ (by norm_num)]; congr 1; ring
    have h2 : (2 : K) ^ emin = 2 * 2 ^ (emin - 1) := two_zpow_pred emin
    have := mul_le_mul_of_nonneg_left nq (mul_nonneg u0.le u0.le)
    linarith
  have te : |th - w / c.hi| ≤ 36 / 10 * (u * u * Q) := by
    have h1 := N.relU hp1 (w / c.hi)
    rw [← hth, ← hu] at h1
    have := mul_le_mul_of_nonneg_left wq u0.le
    linarith
  have uQ : 0 ≤ u * Q := mul_nonneg u0.le Q0
  have uQ1 : u * Q ≤ Q / 256 := by have := mul_le_mul_of_nonneg_right u1 Q0; linarith
  have uuQ : u * u * Q ≤ u * Q / 256 := by
    have := mul_le_mul_of_nonneg_left u1 uQ
    linarith
  have hle : |th| ≤ |tl| := by
    have h1 := abs_add_le (th - w / c.hi) (w / c.hi)
    rw [sub_add_cancel] at h1
    have h2 := abs_sub_abs_le_abs_sub (b.hi / c.hi) tl
    rw [abs_sub_comm, ← hQ] at h2
    linarith
  obtain ⟨g1, g2⟩ := norm_of_fast N (fastErr_le N (by omega) ftl fth hle)
  refine ⟨g1, ?_⟩
  rw [g2]
  -- the true quotient
  have cv : 255 / 256 * |c.hi| ≤ |c.val| := by
    have h1 := abs_sub_abs_le_abs_sub c.hi (-c.lo)
    rw [sub_neg_eq_add, abs_neg, ← cval] at h1
    have := mul_le_mul_of_nonneg_right u1 hC.le
    linarith
  have cv0 : c.val ≠ 0 := by
    intro h; rw [h, abs_zero] at cv; linarith
  have lq : |c.lo / c.val| ≤ 256 / 255 * u := abs_div_le cv0 (by
    have := mul_le_mul_of_nonneg_left cv u0.le
    linarith)
  have eq : tl + th - b.val / c.val =
      (th - w / c.hi) + (w - (b.val - c.val * tl)) / c.hi + (b.val - c.val * tl) / c.hi * (c.lo / c.val) := by
    have e1 : b.val / c.val = tl + (b.val - c.val * tl) / c.val := by field_simp; ring
    have e2 : (b.val - c.val * tl) / c.hi * (c.lo / c.val) =
        (b.val - c.val * tl) / c.hi - (b.val - c.val * tl) / c.val := by
      have : c.lo = c.val - c.hi := by rw [cval]; ring
      rw [this]; field_simp
    rw [e1, e2]; ring
  rw [eq]
  have h3 := abs_add_three (th - w / c.hi) ((w - (b.val - c.val * tl)) / c.hi) ((b.val - c.val * tl) / c.hi * (c.lo / c.val))
  have h4 : |(b.val - c.val * tl) / c.hi * (c.lo / c.val)| ≤ 301 / 100 * (u * Q) * (256 / 255 * u) := by
    rw [abs_mul]
    exact mul_le_mul XQ lq (abs_nonneg _) (by linarith)
  have uuQ0 : 0 ≤ u * u * Q := mul_nonneg (mul_nonneg u0.le u0.le) Q0
  linarith

end Lis
