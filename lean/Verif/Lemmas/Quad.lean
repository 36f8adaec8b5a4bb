import Verif.Lemmas.TwoProd

namespace Lis
variable {K : Type} [Field K] [LinearOrder K] [IsStrictOrderedRing K]

/-- value of the error term of `LIS_QUAD_TWO_SUM` -/
def sumErr (rnd : K → K) (a b : K) : K :=
  let s := rnd (a + b)
  let t := rnd (s - a)
  rnd (rnd (a - rnd (s - t)) + rnd (b - t))

/-- value of the error term of `LIS_QUAD_FAST_TWO_SUM` -/
def fastErr (rnd : K → K) (a b : K) : K := rnd (b - rnd (rnd (a + b) - a))

theorem lisQuadAdd_eq (rnd sq : K → K) (junk : QSt K) (b c : QD K) :
    lisQuadAdd (fpOf rnd sq) false junk b c =
      let sh := rnd (b.hi + c.hi)
      let e := rnd (rnd (sumErr rnd b.hi c.hi + b.lo) + c.lo)
      ⟨rnd (sh + e), fastErr rnd sh e⟩ := rfl

theorem lisQuadSub_eq (rnd sq : K → K) (junk : QSt K) (b c : QD K) :
    lisQuadSub (fpOf rnd sq) junk b c = lisQuadAdd (fpOf rnd sq) false junk b ⟨-c.hi, -c.lo⟩ := by
  rw [lisQuadAdd_eq]; rfl

theorem lisQuadMul_eq (rnd sq : K → K) (C : K) (junk : QSt K) (b c : QD K) :
    lisQuadMul (fpOf rnd sq) C junk b c =
      let p1 := rnd (b.hi * c.hi)
      let e := rnd (rnd (prodErr rnd C b.hi c.hi + rnd (b.hi * c.lo)) + rnd (b.lo * c.hi))
      ⟨rnd (p1 + e), fastErr rnd p1 e⟩ := rfl

theorem lisQuadMulD_eq (rnd sq : K → K) (C : K) (junk : QSt K) (b : QD K) (c : K) :
    lisQuadMulD (fpOf rnd sq) C junk b c =
      let p1 := rnd (b.hi * c)
      let e := rnd (prodErr rnd C b.hi c + rnd (b.lo * c))
      ⟨rnd (p1 + e), fastErr rnd p1 e⟩ := rfl

theorem lisQuadSqr_eq (rnd sq : K → K) (C : K) (junk : QSt K) (b : QD K) :
    lisQuadSqr (fpOf rnd sq) C 2 junk b =
      let p1 := rnd (b.hi * b.hi)
      let e := rnd (rnd (sqrErr rnd C b.hi + rnd (rnd (2 * b.hi) * b.lo)) + rnd (b.lo * b.lo))
      ⟨rnd (p1 + e), fastErr rnd p1 e⟩ := rfl

variable [FloorRing K] {p : ℕ} {emin : ℤ} {rnd : K → K}

theorem sumErr_exact (N : Nearest p emin rnd) (hp : 3 ≤ p) {a b : K} (fa : IsFloat p emin a) (fb : IsFloat p emin b) :
    sumErr rnd a b = a + b - rnd (a + b) := by
  obtain ⟨h1, h2, h3, h4⟩ := twoSum_exact N hp fa fb
  unfold sumErr
  simp only
  rw [N.exact h1, N.exact h2, N.exact h3]
  rw [show a - (rnd (a + b) - rnd (rnd (a + b) - a)) + (b - rnd (rnd (a + b) - a)) = a + b - rnd (a + b) by ring]
  exact N.exact h4

theorem fastErr_exact (N : Nearest p emin rnd) (hp : 2 ≤ p) {a b : K} {j : ℤ} (hj : emin ≤ j) (fa : IsFloat p emin a)
    (ga : OnGrid j a) (gb : OnGrid j b) (hb : |b| < 2 ^ (j + p)) : fastErr rnd a b = a + b - rnd (a + b) := by
  obtain ⟨h1, h2⟩ := fastTwoSum_grid N hp hj fa ga gb hb
  unfold fastErr
  rw [N.exact h1, show b - (rnd (a + b) - a) = a + b - rnd (a + b) by ring]
  exact N.exact h2

theorem fastErr_le (N : Nearest p emin rnd) (hp : 2 ≤ p) {a b : K} (fa : IsFloat p emin a) (fb : IsFloat p emin b)
    (h : |b| ≤ |a|) : fastErr rnd a b = a + b - rnd (a + b) := by
  obtain ⟨j, h1, h2, h3, h4⟩ := fa.common (by omega) fb h
  exact fastErr_exact N hp h1 fa h2 h3 h4

theorem IsFloat.abs {x : K} (h : IsFloat p emin x) : IsFloat p emin |x| := by
  rcases abs_choice x with e | e
  · rw [e]; exact h
  · rw [e]; exact h.neg

/-- the low part of a normalized pair is at most half a unit in the last place -/
theorem QD.Norm.lo_le (hp : 1 ≤ p) {q : QD K} (N : Nearest p emin rnd) (h : q.Norm p emin rnd) {k : ℤ} (hk : emin ≤ k)
    (hg : OnGrid k q.hi) (hb : |q.hi| < 2 ^ (k + p)) : |q.lo| ≤ 2 ^ (k - 1) := by
  have e : (2 : K) ^ k = 2 * 2 ^ (k - 1) := two_zpow_pred k
  have h0 := two_zpow_pos (K := K) k
  have hle := hg.lt_le (by omega) hb
  have f1 : IsFloat p emin (q.hi + 2 ^ k) := isFloat_of_grid hp hk (hg.add (OnGrid.pow (le_refl _))) (by
    have := abs_add_le q.hi (2 ^ k)
    rw [abs_of_pos h0] at this
    linarith)
  have f2 : IsFloat p emin (q.hi - 2 ^ k) := isFloat_of_grid hp hk (hg.sub (OnGrid.pow (le_refl _))) (by
    have := abs_sub q.hi (2 ^ k)
    rw [abs_of_pos h0] at this
    linarith)
  have n1 := N.near (q.hi + q.lo) _ f1
  have n2 := N.near (q.hi + q.lo) _ f2
  rw [h.sum, show q.hi - (q.hi + q.lo) = -q.lo by ring, abs_neg] at n1 n2
  rw [show q.hi + 2 ^ k - (q.hi + q.lo) = 2 ^ k - q.lo by ring] at n1
  rw [show q.hi - 2 ^ k - (q.hi + q.lo) = -(2 ^ k + q.lo) by ring, abs_neg] at n2
  rcases le_total 0 q.lo with hl | hl
  · rw [abs_of_nonneg hl] at n1 ⊢
    rcases le_total q.lo (2 ^ k) with h2 | h2
    · rw [abs_of_nonneg (by linarith)] at n1; linarith
    · rw [abs_of_nonpos (by linarith)] at n1; linarith
  · rw [abs_of_nonpos hl] at n2 ⊢
    rcases le_total (-q.lo) (2 ^ k) with h2 | h2
    · rw [abs_of_nonneg (by linarith)] at n2; linarith
    · rw [abs_of_nonpos (by linarith)] at n2; linarith

/-- rounding a sum of floating-point numbers bounded by `2^(k+p)`; no underflow -/
theorem add_round (N : Nearest p emin rnd) (hp : 1 ≤ p) {a b : K} (fa : IsFloat p emin a) (fb : IsFloat p emin b) {k : ℤ}
    (h : |a + b| ≤ 2 ^ (k + p)) : |rnd (a + b) - (a + b)| ≤ 2 ^ (k - 1) ∧ (k < emin → rnd (a + b) = a + b) := by
  rcases le_or_gt emin k with hk | hk
  · exact ⟨N.err hp hk h, fun h' => by omega⟩
  · have : rnd (a + b) = a + b := N.exact (isFloat_of_grid hp (le_refl _) (fa.grid_emin.add fb.grid_emin)
      (h.trans (two_zpow_le (by omega))))
    refine ⟨?_, fun _ => this⟩
    rw [this, sub_self, abs_zero]
    exact (two_zpow_pos _).le

/-- a pair whose low part is at most half a unit in the last place of the high part -/
structure QD.Close (p : ℕ) (emin : ℤ) (q : QD K) : Prop where
  fhi : IsFloat p emin q.hi
  flo : IsFloat p emin q.lo
  lo_le : ∀ k, emin ≤ k → OnGrid k q.hi → |q.hi| < 2 ^ (k + p) → |q.lo| ≤ 2 ^ (k - 1)

theorem QD.Norm.close (hp : 1 ≤ p) {q : QD K} (N : Nearest p emin rnd) (h : q.Norm p emin rnd) : q.Close p emin :=
  ⟨h.fhi, h.flo, fun _ hk hg hb => h.lo_le hp N hk hg hb⟩

theorem QD.Close.neg {q : QD K} (h : q.Close p emin) : (⟨-q.hi, -q.lo⟩ : QD K).Close p emin :=
  ⟨h.fhi.neg, h.flo.neg, fun k hk hg hb => by
    have := h.lo_le k hk (by simpa using hg.neg) (by simpa using hb)
    simpa using this⟩

/-- the fast addition of two normalized pairs, the one with the larger exponent first or second -/
theorem quad_add_aux (N : Nearest p emin rnd) (hp : 4 ≤ p) {b c : QD K} (hb : b.Close p emin) (hc : c.Close p emin)
    {e : K} (he : e = rnd (rnd (sumErr rnd b.hi c.hi + b.lo) + c.lo)) :
    ∃ k, emin ≤ k ∧ (k = emin ∨ 2 ^ (k + p - 1) ≤ max |b.hi| |c.hi|) ∧
      fastErr rnd (rnd (b.hi + c.hi)) e = rnd (b.hi + c.hi) + e - rnd (rnd (b.hi + c.hi) + e) ∧
      |rnd (b.hi + c.hi) + e - (b.val + c.val)| ≤ 3 * 2 ^ (k - p) ∧
      (k + 2 - p < emin → rnd (b.hi + c.hi) + e = b.val + c.val) := by
  have hp1 : 1 ≤ p := by omega
  obtain ⟨kb, b1, b2, b3, b4⟩ := hb.fhi.canon hp1
  obtain ⟨kc, c1, c2, c3, c4⟩ := hc.fhi.canon hp1
  have bl := hb.lo_le _ b1 b2 b3
  have cl := hc.lo_le _ c1 c2 c3
  obtain ⟨k, hk⟩ : ∃ k, k = max kb kc := ⟨_, rfl⟩
  have kb_le : kb ≤ k := hk ▸ le_max_left _ _
  have kc_le : kc ≤ k := hk ▸ le_max_right _ _
  obtain ⟨sh, hsh⟩ : ∃ sh, sh = rnd (b.hi + c.hi) := ⟨_, rfl⟩
  have se := sumErr_exact N (by omega) hb.fhi hc.fhi
  have fse : IsFloat p emin (sumErr rnd b.hi c.hi) := by rw [se]; exact add_err_float N (by omega) hb.fhi hc.fhi
  have hse : |sumErr rnd b.hi c.hi| ≤ 2 ^ k := by
    rw [se, abs_sub_comm]
    have : |b.hi + c.hi| ≤ 2 ^ (k + 1 + p) := by
      have := abs_add_le b.hi c.hi
      have q1 : (2 : K) ^ (kb + p) ≤ 2 ^ (k + p) := two_zpow_le (by omega)
      have q2 : (2 : K) ^ (kc + p) ≤ 2 ^ (k + p) := two_zpow_le (by omega)
      rw [show k + 1 + (p : ℤ) = k + p + 1 by ring, two_zpow_succ]
      linarith
    have := (add_round N hp1 hb.fhi hc.fhi this).1
    rwa [add_sub_cancel_right] at this
  have w0 : (2 : K) ^ k = 2 * 2 ^ (k - 1) := two_zpow_pred k
  have w1 : (2 : K) ^ (k + 1) = 2 * 2 ^ k := two_zpow_succ k
  have w2 : (2 : K) ^ (k + 2) = 2 * 2 ^ (k + 1) := by rw [← two_zpow_succ]; congr 1; ring
  have p0 := two_zpow_pos (K := K) (k - 1)
  have bl' : |b.lo| ≤ 2 ^ (k - 1) := bl.trans (two_zpow_le (by omega))
  have cl' : |c.lo| ≤ 2 ^ (k - 1) := cl.trans (two_zpow_le (by omega))
  obtain ⟨e1, he1⟩ : ∃ e1, e1 = rnd (sumErr rnd b.hi c.hi + b.lo) := ⟨_, rfl⟩
  have s1 : |sumErr rnd b.hi c.hi + b.lo| ≤ 2 ^ (k + 1) := by
    have := abs_add_le (sumErr rnd b.hi c.hi) b.lo
    linarith
  have he1b : |e1| ≤ 2 ^ (k + 1) := by rw [he1]; exact N.le (isFloat_pow hp1 (by omega)) s1
  have r1 := add_round N hp1 fse hb.flo (k := k + 1 - p) (by rwa [sub_add_cancel])
  rw [← he1] at r1 he
  have s2 : |e1 + c.lo| ≤ 2 ^ (k + 2) := by
    have := abs_add_le e1 c.lo
    linarith
  have heb : |e| ≤ 2 ^ (k + 2) := by rw [he]; exact N.le (isFloat_pow hp1 (by omega)) s2
  have fe1 : IsFloat p emin e1 := he1 ▸ N.float _
  have fe : IsFloat p emin e := he ▸ N.float _
  have r2 := add_round N hp1 fe1 hc.flo (k := k + 2 - p) (by rwa [sub_add_cancel])
  rw [← he] at r2
  have err : sh + e - (b.val + c.val) = (e - (e1 + c.lo)) + (e1 - (sumErr rnd b.hi c.hi + b.lo)) := by
    rw [se, ← hsh]; unfold QD.val; ring
  rw [← hsh]
  refine ⟨k, by omega, ?_, ?_, ?_, ?_⟩
  · rcases (by omega : k = kb ∨ k = kc) with rfl | rfl
    · exact b4.imp id fun h => h.trans (le_max_left _ _)
    · exact c4.imp id fun h => h.trans (le_max_right _ _)
  · -- the final fast two-sum is exact
    have fsh : IsFloat p emin sh := hsh ▸ N.float _
    obtain ⟨j, j1, j2, j3, j4⟩ := fe.canon hp1
    have jle : j = emin ∨ j + p ≤ k + 3 := by
      rcases j4 with h | h
      · exact Or.inl h
      · right
        have : (2 : K) ^ (j + p - 1) < 2 ^ (k + 3) := by
          refine lt_of_le_of_lt (h.trans heb) (two_zpow_lt (by omega))
        have := of_two_zpow_lt this
        omega
    by_cases hd : kb ≤ kc + 1 ∧ kc ≤ kb + 1
    · have gsh : OnGrid (k - 1) sh ∨ OnGrid emin sh := by
        by_cases hke : emin ≤ k - 1
        · left
          rw [hsh]
          exact N.grid hp1 hke ((b2.mono (by omega)).add (c2.mono (by omega)))
        · right; exact fsh.grid_emin
      refine fastErr_exact N (by omega) j1 fsh ?_ j2 j3
      rcases jle with rfl | h
      · exact fsh.grid_emin
      · rcases gsh with g | g
        · exact g.mono (by omega)
        · rcases (by omega : j ≤ k - 1 ∨ j ≤ emin) with h' | h'
          · -- `k - 1 ≥ j ≥ emin`
            rw [hsh]
            exact N.grid hp1 j1 ((b2.mono (by omega)).add (c2.mono (by omega)))
          · exact g.mono h'
    · -- one operand is much larger
      refine fastErr_le N (by omega) fsh fe ?_
      have big : 2 ^ (k + p - 2) ≤ |b.hi + c.hi| := by
        have w : (2 : K) ^ (k + p - 1) = 2 * 2 ^ (k + p - 2) := by rw [two_zpow_pred]; congr 2; ring
        rcases (by omega : kc + 2 ≤ kb ∨ kb + 2 ≤ kc) with h | h
        · obtain rfl : k = kb := by omega
          have q1 : (2 : K) ^ (kc + p) ≤ 2 ^ (k + p - 2) := two_zpow_le (by omega)
          have q2 := b4.resolve_left (by omega)
          have := abs_sub_abs_le_abs_sub b.hi (-c.hi)
          rw [sub_neg_eq_add, abs_neg] at this
          linarith
        · obtain rfl : k = kc := by omega
          have q1 : (2 : K) ^ (kb + p) ≤ 2 ^ (k + p - 2) := two_zpow_le (by omega)
          have q2 := c4.resolve_left (by omega)
          have := abs_sub_abs_le_abs_sub c.hi (-b.hi)
          rw [sub_neg_eq_add, abs_neg, add_comm] at this
          linarith
      have := N.ge (isFloat_pow hp1 (by omega : emin ≤ k + p - 2)) (two_zpow_pos _).le big
      rw [← hsh] at this
      exact heb.trans ((two_zpow_le (by omega)).trans this)
  · rw [err]
    have := abs_add_le (e - (e1 + c.lo)) (e1 - (sumErr rnd b.hi c.hi + b.lo))
    have q1 := r1.1
    have q2 := r2.1
    rw [show k + 1 - (p : ℤ) - 1 = k - p by ring] at q1
    rw [show k + 2 - (p : ℤ) - 1 = k - p + 1 by ring, two_zpow_succ] at q2
    linarith
  · intro h
    have q1 := r1.2 (by omega)
    have q2 := r2.2 h
    have : sh + e - (b.val + c.val) = 0 := by rw [err, q2, q1]; ring
    exact sub_eq_zero.1 this

end Lis
