import Verif.Model.Gmres
import Verif.Lemmas.SolverLast
import Verif.Lemmas.Bicgstabl

namespace Lis
variable {R S : Type} {n : ℕ}

theorem gmH_lt {m k ii : ℕ} (hk : k ≤ m) (hi : ii < m) : gmH m k ii < m * (m + 1) := by
  have : (ii + 1) * (m + 1) ≤ m * (m + 1) := Nat.mul_le_mul_right _ hi
  have : (ii + 1) * (m + 1) = ii * (m + 1) + (m + 1) := by ring
  simp only [gmH]; omega

theorem gm_sz (m : ℕ) : (m + 1 + 1) * (m + 1 + 2) = m * (m + 1) + 4 * m + 6 ∧ (m + 1) * (m + 1) = m * (m + 1) + m + 1 ∧
    (m + 2) * (m + 1) = m * (m + 1) + 2 * m + 2 := by
  refine ⟨by ring, by ring, by ring⟩

theorem gmH_inj {m k k' ii ii' : ℕ} (hk : k ≤ m) (hk' : k' ≤ m) (h : gmH m k ii = gmH m k' ii') : k = k' ∧ ii = ii' := by
  simp only [gmH] at h
  have e : k = k' := by
    have := congrArg (· % (m + 1)) h
    simpa [Nat.add_mod, Nat.mod_eq_of_lt (show k < m + 1 by omega), Nat.mod_eq_of_lt (show k' < m + 1 by omega)] using this
  subst e
  exact ⟨rfl, Nat.eq_of_mul_eq_mul_right (Nat.succ_pos m) (show ii * (m + 1) = ii' * (m + 1) by omega)⟩

/-- indices are inside the block, or differ -/
macro "gmidx" : tactic => `(tactic| first
  | (rw [‹Arr.size _ = _›, (gm_sz _).1]; exact Nat.lt_of_lt_of_le (gmH_lt (by omega) (by omega)) (by omega))
  | (rw [‹Arr.size _ = _›, (gm_sz _).1]; simp only [gmCs, gmSn, (gm_sz _).2.1, (gm_sz _).2.2]; omega))

theorem gmH_ne_cs {m k ii j : ℕ} (hk : k ≤ m) (hi : ii < m) : gmH m k ii ≠ gmCs m j := by
  have := gmH_lt hk hi
  have := (gm_sz m).2.1
  simp only [gmCs]; omega
theorem gmH_ne_sn {m k ii j : ℕ} (hk : k ≤ m) (hi : ii < m) : gmH m k ii ≠ gmSn m j := by
  have := gmH_lt hk hi
  have := (gm_sz m).2.2
  simp only [gmSn]; omega
theorem gmCs_ne_sn {m i j : ℕ} (hi : i < m) : gmCs m i ≠ gmSn m j := by
  have := (gm_sz m).2.1
  have := (gm_sz m).2.2
  simp only [gmCs, gmSn]; omega

/-- a final write -/
theorem Ok_aWr1 [Add R] [Mul R] [Star R] {K : Kit R S n} {β : Type} {a : Arr β} {i : ℕ} {v : β} {s : MSt R S n}
    {Q : Arr β × MSt R S n → Prop} (hi : i < a.size) (h : Q (a.set i v, s)) :
    Ok ((aWr a i v : Prog R S _).run K s) Q := by
  have : (aWr a i v : Prog R S (Arr β)) = .ret (a.set i v) := by simp [aWr, Arr.wr, hi, Prog.ofOption]
  rw [this]
  exact ⟨_, rfl, h⟩

section
variable [Zero R] [One R] [Add R] [Neg R] [Mul R] [Div R] [Sub R] [Star R] [DecidableEq R] [RealOps S]

/-- rotations `< i` are defined -/
def GmRot (m i : ℕ) (a : Arr (Option R)) : Prop :=
  ∀ j, j < i → a.get (gmCs m j) ≠ none ∧ a.get (gmSn m j) ≠ none
/-- rows `≤ ii` of column `ii` are defined, for columns `< i` -/
def GmCols (m i : ℕ) (a : Arr (Option R)) : Prop := ∀ k j, k ≤ j → j < i → a.get (gmH m k j) ≠ none

omit [Zero R] [Sub R] [DecidableEq R] in
theorem gmArnoldi_ok (F : GmFns R S) (K : Kit R S n) (m : ℕ) (v : ℕ → ℕ) (ii : ℕ) (hi : ii < m) (a : Arr (Option R))
    (s : MSt R S n) (hsz : a.size = (m + 1 + 1) * (m + 1 + 2)) :
    Ok ((gmArnoldi F m v ii a).run K s) fun r => r.2.hist = s.hist ∧ (∀ k, k ≠ v (ii + 1) → r.2.h k = s.h k) ∧
      ArrMono a r.1 ∧ (∀ k, k ≤ ii + 1 → r.1.get (gmH m k ii) ≠ none) ∧
      (∀ k, (∀ k', k' ≤ m → k ≠ gmH m k' ii) → r.1.get k = a.get k) := by
  unfold gmArnoldi
  simp only [vDot, vAxpy, vNrm2, vScale]
  refine Ok_pbind (Ok_pfor (fun k a' s' => s'.hist = s.hist ∧ (∀ k, k ≠ v (ii + 1) → s'.h k = s.h k) ∧ ArrMono a a' ∧
      (∀ k', k' < k → a'.get (gmH m k' ii) ≠ none) ∧ (∀ k, (∀ k', k' ≤ m → k ≠ gmH m k' ii) → a'.get k = a.get k))
    (ii + 1) 0 a s ⟨rfl, fun _ _ => rfl, .refl a, fun _ _ => by omega, fun _ _ => rfl⟩ ?_ ?_)
  · rintro k a' s' - hk ⟨e1, e2, e3, e4, e5⟩
    have hsz' := e3.1.trans hsz
    refine Ok_red fun t _ => Ok_aWr (by gmidx) (Ok_vop fun w _ => Ok_ret ⟨e1, fun k' hk' => ?_, e3.trans (.set _ _ _),
      fun k' hk' => ?_, fun k' hk' => ?_⟩)
    · simp only [VOp.dst]; rw [Function.update_of_ne hk']; exact e2 k' hk'
    · by_cases he : k' = k
      · subst he; simp
      · exact (ArrMono.set _ _ _).2 _ (e4 k' (by omega))
    · rw [Arr.set_get_ne _ _ (hk' k (by omega))]; exact e5 k' hk'
  · rintro a' s' ⟨e1, e2, e3, e4, e5⟩
    have hsz' := e3.1.trans hsz
    refine Ok_norm fun t _ => Ok_aWr (by gmidx) (Ok_vop fun w _ => Ok_ret ⟨e1, fun k' hk' => ?_, e3.trans (.set _ _ _),
      fun k' hk' => ?_, fun k' hk' => ?_⟩)
    · simp only [VOp.dst]; rw [Function.update_of_ne hk']; exact e2 k' hk'
    · by_cases he : k' = ii + 1
      · subst he; simp
      · exact (ArrMono.set _ _ _).2 _ (e4 k' (by omega))
    · rw [Arr.set_get_ne _ _ (hk' (ii + 1) (by omega))]; exact e5 k' hk'

omit [Zero R] [One R] [Div R] [Sub R] [DecidableEq R] [RealOps S] in
theorem gmRotate_ok (K : Kit R S n) (m ii : ℕ) (hi : ii < m) (a : Arr (Option R))
    (s : MSt R S n) (hsz : a.size = (m + 1 + 1) * (m + 1 + 2)) (hc : ∀ k, k ≤ ii + 1 → a.get (gmH m k ii) ≠ none)
    (hr : GmRot m ii a) :
    Ok ((gmRotate m ii a).run K s) fun r => r.2 = s ∧ ArrMono a r.1 ∧
      (∀ k, (∀ k', k' ≤ m → k ≠ gmH m k' ii) → r.1.get k = a.get k) := by
  unfold gmRotate
  refine Ok_pfor (fun jj a' s' => s' = s ∧ ArrMono a a' ∧
      (∀ k, (∀ k', k' ≤ m → k ≠ gmH m k' ii) → a'.get k = a.get k)) ii 0 a s ⟨rfl, .refl a, fun _ _ => rfl⟩ ?_ ?_
  · rintro jj a' s' - hj ⟨rfl, e1, e2⟩
    have hsz' := e1.1.trans hsz
    refine Ok_aUse (by gmidx) (e1.2 _ (hc jj (by omega))) fun t _ => Ok_aUse (by gmidx) (e1.2 _ (hr jj (by omega)).1)
      fun c _ => Ok_aUse (by gmidx) (e1.2 _ (hr jj (by omega)).2) fun sn _ =>
      Ok_aUse (by gmidx) (e1.2 _ (hc (jj + 1) (by omega))) fun hk _ => ?_
    simp only
    refine Ok_aWr (by gmidx) (Ok_aWr1 ?_ ⟨rfl,
        e1.trans ((ArrMono.set _ _ _).trans (.set _ _ _)), fun k hk => ?_⟩)
    · simp only [Arr.set_size]; gmidx
    · rw [Arr.set_get_ne _ _ (hk _ (by omega)), Arr.set_get_ne _ _ (hk _ (by omega))]; exact e2 k hk
  · rintro a' s' ⟨h1, h2, h3⟩
    exact ⟨h1, h2, h3⟩

omit [One R] [Sub R] [Star R] [RealOps S] in
theorem gmGivens_ok [Star R] (F : GmFns R S) (K : Kit R S n) (m ii : ℕ) (hi : ii < m) (a : Arr (Option R)) (sa : Arr R)
    (s : MSt R S n) (hsz : a.size = (m + 1 + 1) * (m + 1 + 2)) (hs : sa.size = m + 1)
    (hc : ∀ k, k ≤ ii + 1 → a.get (gmH m k ii) ≠ none) :
    Ok ((gmGivens F m ii a sa).run K s) fun r => r.2 = s ∧ ArrMono a r.1.1 ∧ r.1.2.size = m + 1 ∧
      r.1.1.get (gmCs m ii) ≠ none ∧ r.1.1.get (gmSn m ii) ≠ none ∧
      (∀ k, k ≠ gmH m ii ii → k ≠ gmCs m ii → k ≠ gmSn m ii → r.1.1.get k = a.get k) := by
  unfold gmGivens
  refine Ok_aUse (by gmidx) (hc ii (by omega)) fun aa _ => Ok_aUse (by gmidx) (hc (ii + 1) (by omega)) fun bb _ => ?_
  simp only
  generalize (if F.sqrt (aa * aa + bb * bb) = 0 then F.tiny else F.sqrt (aa * aa + bb * bb)) = rr
  have h2 : ∀ x : R, (a.set (gmCs m ii) (some x)).size = (m + 1 + 1) * (m + 1 + 2) := fun _ => hsz
  have h3 : ∀ x y : R, ((a.set (gmCs m ii) (some x)).set (gmSn m ii) (some y)).size = (m + 1 + 1) * (m + 1 + 2) := fun _ _ => hsz
  refine Ok_aWr (by gmidx) (Ok_aWr (by rw [h2, (gm_sz _).1]; simp only [gmSn, (gm_sz _).2.2]; omega) ?_)
  have hm : ArrMono a ((a.set (gmCs m ii) (some (aa / rr))).set (gmSn m ii) (some (bb / rr))) :=
    (ArrMono.set _ _ _).trans (.set _ _ _)
  refine Ok_aUse (by rw [h3, (gm_sz _).1]; simp only [gmSn, (gm_sz _).2.2]; omega) (by simp) fun sn _ =>
    Ok_aRd (by omega) (Ok_aWr (by omega) (Ok_aUse (by rw [h3, (gm_sz _).1]; simp only [gmCs, (gm_sz _).2.1]; omega)
      ((ArrMono.set _ _ _).2 _ (by simp)) fun cs _ => Ok_aRd (by simp only [Arr.set_size]; omega)
      (Ok_aWr (by simp only [Arr.set_size]; omega)
      (Ok_aUse (by rw [h3, (gm_sz _).1]; exact Nat.lt_of_lt_of_le (gmH_lt (by omega) (by omega)) (by omega)) (hm.2 _ (hc ii (by omega)))
      fun hi' _ => Ok_aUse (by rw [h3, (gm_sz _).1]; exact Nat.lt_of_lt_of_le (gmH_lt (by omega) (by omega)) (by omega))
        (hm.2 _ (hc (ii + 1) (by omega))) fun h1 _ =>
        Ok_aWr (by rw [h3, (gm_sz _).1]; exact Nat.lt_of_lt_of_le (gmH_lt (by omega) (by omega)) (by omega)) (Ok_ret
          ⟨rfl, hm.trans (.set _ _ _), by simpa using hs, (ArrMono.set _ _ _).2 _ ((ArrMono.set _ _ _).2 _ (by simp)),
            (ArrMono.set _ _ _).2 _ (by simp), fun k h1 h2 h3 => ?_⟩)))))
  rw [Arr.set_get_ne _ _ h1, Arr.set_get_ne _ _ h3, Arr.set_get_ne _ _ h2]


theorem gmStep_ok (F : GmFns R S) (K : Kit R S n) (m : ℕ) (v z : ℕ → ℕ) (hvz : ∀ i, v i ≠ z i ∧ z i ≠ v (i + 1))
    (fin : S → S) (o : Opts R S) (iter ii : ℕ) (hi : ii < m) (a : Arr (Option R)) (sa : Arr R)
    (s : MSt R S n) (hsz : a.size = (m + 1 + 1) * (m + 1 + 2)) (hs : sa.size = m + 1) (hr : GmRot m ii a)
    (hc : GmCols m ii a) (hh : iter < s.hist.size) :
    Ok ((gmStep F m v z hvz fin o iter ii a sa).run K s) fun r => Recorded o iter r.1.2.2 s.hist r.2.hist ∧
      (∀ k, k ≠ z ii → k ≠ v (ii + 1) → r.2.h k = s.h k) ∧ r.1.1.size = (m + 1 + 1) * (m + 1 + 2) ∧
      r.1.2.1.size = m + 1 ∧ GmRot m (ii + 1) r.1.1 ∧ GmCols m (ii + 1) r.1.1 := by
  unfold gmStep
  simp only [mPsolve, mMatvec]
  refine Ok_vop fun w1 _ => Ok_vop fun w2 _ => Ok_pbind ((gmArnoldi_ok F K m v ii hi a _ hsz).mono ?_)
  rintro ⟨a1, s1⟩ ⟨e1, e2, e3, e4, -⟩
  simp only [VOp.dst] at e1 e2 e3 e4
  have hsz1 := e3.1.trans hsz
  refine Ok_pbind ((gmRotate_ok K m ii hi a1 s1 hsz1 e4 fun j hj => ⟨e3.2 _ (hr j hj).1, e3.2 _ (hr j hj).2⟩).mono ?_)
  rintro ⟨a2, s2⟩ ⟨f1, f2, -⟩
  simp only at f1 f2
  subst f1
  have hsz2 := f2.1.trans hsz1
  refine Ok_pbind ((gmGivens_ok F K m ii hi a2 sa s2 hsz2 hs fun k hk => f2.2 _ (e4 k hk)).mono ?_)
  rintro ⟨⟨a3, sa3⟩, s3⟩ ⟨g1, g2, g3, g4, g5, -⟩
  simp only at g1 g2 g3 g4 g5
  subst g1
  have hm := (e3.trans f2).trans g2
  have hrot : GmRot m (ii + 1) a3 := by
    intro j hj
    by_cases he : j = ii
    · subst he; exact ⟨g4, g5⟩
    · exact ⟨hm.2 _ (hr j (by omega)).1, hm.2 _ (hr j (by omega)).2⟩
  have hcols : GmCols m (ii + 1) a3 := by
    intro k j hk hj
    by_cases he : j = ii
    · subst he; exact (f2.trans g2).2 _ (e4 k (by omega))
    · exact hm.2 _ (hc k j hk (by omega))
  have hfr : ∀ k, k ≠ z ii → k ≠ v (ii + 1) → s3.h k = s.h k := by
    intro k h1 h2
    rw [e2 k h2, Function.update_of_ne h2, Function.update_of_ne h1]
  simp only
  refine Ok_aRd (by omega) (Ok_pif (fun hmem => Ok_hist (by rw [e1]; exact hh) (Ok_ret ⟨?_, hfr, hm.1.trans hsz, g3, hrot, hcols⟩))
    fun hmem => Ok_ret ⟨?_, hfr, hm.1.trans hsz, g3, hrot, hcols⟩)
  · unfold Recorded; rw [if_pos hmem, e1]
  · unfold Recorded; rw [if_neg hmem, e1]

/-- the inner loop: status -/
theorem gmInner_ok (F : GmFns R S) (K : Kit R S n) (m : ℕ) (v z : ℕ → ℕ) (hvz : ∀ i, v i ≠ z i ∧ z i ≠ v (i + 1))
    (hb : ∀ i, hB ≠ v i ∧ hB ≠ z i)
    (fin : S → S) (o : Opts R S) (s0 : MSt R S n) (hinit : ¬ initialResOf K o s0.h ≤ RealOps.fabs o.tol)
    (hsz0 : o.maxiter < s0.hist.size) :
    ∀ (k iter ii : ℕ) (a : Arr (Option R)) (sa : Arr R) (s : MSt R S n) (p : S), ii + k < m → iter + k + 1 ≤ o.maxiter →
    a.size = (m + 1 + 1) * (m + 1 + 2) → sa.size = m + 1 → GmRot m ii a →
    GmCols m ii a → LInv o (tolOf K o s0.h) (s0.h hB) s0.hist iter p s →
    Ok ((gmInner F m v z hvz fin o (tolOf K o s0.h) k iter ii a sa).run K s) fun r =>
      r.1.1.size = (m + 1 + 1) * (m + 1 + 2) ∧ r.1.2.1.size = m + 1 ∧ ii ≤ r.1.2.2.2 ∧ r.1.2.2.2 ≤ ii + k ∧
      GmRot m (r.1.2.2.2 + 1) r.1.1 ∧ GmCols m (r.1.2.2.2 + 1) r.1.1 ∧
      (r.1.2.2.1 ≤ tolOf K o s0.h → ∀ s3 : MSt R S n, s3.h hB = r.2.h hB → s3.hist = r.2.hist →
        ContractLast K o o.maxiter s0 s3 ⟨.success, iter + (r.1.2.2.2 - ii) + 1, r.1.2.2.1⟩) ∧
      (¬ r.1.2.2.1 ≤ tolOf K o s0.h → r.1.2.2.2 = ii + k ∧
        LInv o (tolOf K o s0.h) (s0.h hB) s0.hist (iter + k + 1) r.1.2.2.1 r.2) := by
  intro k
  induction k with
  | zero =>
    intro iter ii a sa s p hk hit hsz hs hr hc hI
    unfold gmInner
    refine Ok_pbind ((gmStep_ok F K m v z hvz fin o (iter + 1) ii (by omega) a sa s hsz hs hr hc (by rw [hI.size]; omega)).mono ?_)
    rintro ⟨⟨a1, sa1, nrm⟩, s1⟩ ⟨e1, e2, e3, e4, e5, e6⟩
    simp only at e1 e2 e3 e4 e5 e6
    have hb1 : s1.h hB = s.h hB := e2 _ (hb _).2 (hb _).1
    refine Ok_ret ⟨e3, e4, le_rfl, le_rfl, e5, e6, fun hle s3 h1 h2 => ?_, fun hle => ⟨rfl, hI.step hb1 hle e1⟩⟩
    simp only [Nat.sub_self, Nat.add_zero] at hle h1 h2 ⊢
    exact hI.success hinit (h1.trans hb1) hle (by rw [h2]; exact e1) (by omega)
  | succ k ih =>
    intro iter ii a sa s p hk hit hsz hs hr hc hI
    unfold gmInner
    refine Ok_pbind ((gmStep_ok F K m v z hvz fin o (iter + 1) ii (by omega) a sa s hsz hs hr hc (by rw [hI.size]; omega)).mono ?_)
    rintro ⟨⟨a1, sa1, nrm⟩, s1⟩ ⟨e1, e2, e3, e4, e5, e6⟩
    simp only at e1 e2 e3 e4 e5 e6
    have hb1 : s1.h hB = s.h hB := e2 _ (hb _).2 (hb _).1
    refine Ok_pif (fun hle => Ok_ret ⟨e3, e4, le_rfl, by simp only; omega, e5, e6, fun hle s3 h1 h2 => ?_, fun h => absurd hle h⟩)
      fun hle => ?_
    · simp only [Nat.sub_self, Nat.add_zero] at hle h1 h2 ⊢
      exact hI.success hinit (h1.trans hb1) hle (by rw [h2]; exact e1) (by omega)
    · refine (ih (iter + 1) (ii + 1) a1 sa1 s1 nrm (by omega) (by omega) e3 e4 e5 e6 (hI.step hb1 hle e1)).mono ?_
      rintro ⟨⟨a2, sa2, nrm2, i2⟩, s2⟩ ⟨f1, f2, f3, f4, f5, f6, f7, f8⟩
      simp only at f1 f2 f3 f4 f5 f6 f7 f8
      refine ⟨f1, f2, by simp only; omega, by simp only; omega, f5, f6, fun hle s3 h1 h2 => ?_, fun hle => ?_⟩
      · have := f7 hle s3 h1 h2
        rw [show iter + 1 + (i2 - (ii + 1)) = iter + (i2 - ii) by omega] at this
        exact this
      · obtain ⟨g1, g2⟩ := f8 hle
        refine ⟨by simp only; omega, ?_⟩
        rw [show iter + 1 + k + 1 = iter + (k + 1) + 1 by omega] at g2
        exact g2

theorem gmBack_ok (K : Kit R S n) (m ii : ℕ) (hi : ii < m) (a : Arr (Option R)) (s : MSt R S n)
    (hsz : a.size = (m + 1 + 1) * (m + 1 + 2)) (hc : GmCols m (ii + 1) a) : ∀ (k : ℕ) (sa : Arr R), sa.size = m + 1 → k ≤ ii →
    Ok ((gmBack m ii a k sa).run K s) fun r => r.2 = s ∧ r.1.size = m + 1 := by
  intro k
  induction k with
  | zero => intro sa hs hk; exact Ok_ret ⟨rfl, hs⟩
  | succ k ih =>
    intro sa hs hk
    unfold gmBack
    refine Ok_aRd (by omega) (Ok_pbind (Ok_pfor (fun _ _ s' => s' = s) (ii - k) (k + 1) _ s rfl ?_ ?_))
    · rintro j t s' h1 h2 rfl
      exact Ok_aUse (by gmidx) (hc k j (by omega) (by omega)) fun x _ => Ok_aRd (by omega) (Ok_ret rfl)
    · rintro t s' rfl
      exact Ok_aUse (by gmidx) (hc k k le_rfl (by omega)) fun d _ => Ok_aWr (by omega) (ih _ (by simpa using hs) (by omega))

theorem gmSolve_ok (K : Kit R S n) (m ii : ℕ) (hi : ii < m) (a : Arr (Option R)) (s : MSt R S n)
    (hsz : a.size = (m + 1 + 1) * (m + 1 + 2)) (hc : GmCols m (ii + 1) a) (sa : Arr R) (hs : sa.size = m + 1) :
    Ok ((gmSolve m ii a sa).run K s) fun r => r.2 = s ∧ r.1.size = m + 1 := by
  unfold gmSolve
  exact Ok_aRd (by omega) (Ok_aUse (by gmidx) (hc ii ii le_rfl (by omega)) fun d _ => Ok_aWr (by omega)
    (gmBack_ok K m ii hi a s hsz hc ii _ (by simpa using hs) le_rfl))

theorem gmUnrot_ok (K : Kit R S n) (m : ℕ) (a : Arr (Option R)) (s : MSt R S n)
    (hsz : a.size = (m + 1 + 1) * (m + 1 + 2)) : ∀ (k : ℕ) (sa : Arr R), sa.size = m + 1 → k ≤ m → GmRot m k a →
    Ok ((gmUnrot m a k sa).run K s) fun r => r.2 = s ∧ r.1.size = m + 1 := by
  intro k
  induction k with
  | zero => intro sa hs hk _; exact Ok_ret ⟨rfl, hs⟩
  | succ k ih =>
    intro sa hs hk hr
    unfold gmUnrot
    refine Ok_aUse (by gmidx) (hr k (by omega)).2 fun sn _ => Ok_aRd (by omega) (Ok_aWr (by omega)
      (Ok_aUse (by gmidx) (hr k (by omega)).1 fun cs _ => Ok_aRd (by simp only [Arr.set_size]; omega)
        (Ok_aWr (by simp only [Arr.set_size]; omega) (ih _ (by simpa using hs) (by omega) fun j hj => hr j (by omega)))))

theorem gmUpdate_ok (K : Kit R S n) (ii : ℕ) (y : Arr R) (hy : ii < y.size) (s : MSt R S n) :
    Ok ((gmUpdate ii y).run K s) fun r => r.2.hist = s.hist ∧
      (∀ k, k ≠ hX → k ≠ wk 1 → k ≠ wk 2 → r.2.h k = s.h k) := by
  unfold gmUpdate
  simp only [vComb, mPsolve, vAxpy]
  refine Ok_aRd (by omega) (Ok_vop fun w1 _ => Ok_pbind (Ok_pfor (fun _ _ s' => s'.hist = s.hist ∧
    (∀ k, k ≠ wk 2 → s'.h k = s.h k)) ii 1 () _ ⟨rfl, fun k hk => ?_⟩ ?_ ?_))
  · simp only [VOp.dst]; rw [Function.update_of_ne hk]
  · rintro j _ s' h1 h2 ⟨e1, e2⟩
    refine Ok_aRd (by omega) (Ok_vop1 fun w _ => ⟨e1, fun k hk => ?_⟩)
    simp only [VOp.dst]; rw [Function.update_of_ne hk]; exact e2 k hk
  · rintro _ s' ⟨e1, e2⟩
    refine Ok_vop fun w2 _ => Ok_vop1 fun w3 _ => ⟨e1, fun k h1 h2 h3 => ?_⟩
    simp only [VOp.dst]
    rw [Function.update_of_ne h1, Function.update_of_ne h2]; exact e2 k h3

theorem gmRestart_ok (K : Kit R S n) (i1 : ℕ) (y : Arr R) (hy : i1 < y.size) (s : MSt R S n) :
    Ok ((gmRestart i1 y).run K s) fun r => r.2.hist = s.hist ∧ (∀ k, k ≠ gmV 0 → r.2.h k = s.h k) := by
  unfold gmRestart
  simp only [vAxpy]
  refine Ok_pfor (fun _ _ s' => s'.hist = s.hist ∧ (∀ k, k ≠ gmV 0 → s'.h k = s.h k)) (i1 + 1) 0 () s
    ⟨rfl, fun _ _ => rfl⟩ ?_ fun _ _ h => h
  rintro j _ s' h1 h2 ⟨e1, e2⟩
  refine Ok_aRd (by omega) ?_
  refine Ok_vop1 fun w _ => ⟨e1, fun k hk => ?_⟩
  simp only [VOp.dst]; rw [Function.update_of_ne hk]; exact e2 k hk

theorem fgUpdate_ok (K : Kit R S n) (ii : ℕ) (y : Arr R) (hy : ii < y.size) (s : MSt R S n) :
    Ok ((fgUpdate ii y).run K s) fun r => r.2.hist = s.hist ∧ (∀ k, k ≠ hX → r.2.h k = s.h k) := by
  unfold fgUpdate
  simp only [vAxpy]
  refine Ok_pfor (fun _ _ s' => s'.hist = s.hist ∧ (∀ k, k ≠ hX → s'.h k = s.h k)) (ii + 1) 0 () s
    ⟨rfl, fun _ _ => rfl⟩ ?_ fun _ _ h => h
  rintro j _ s' h1 h2 ⟨e1, e2⟩
  refine Ok_aRd (by omega) (Ok_vop1 fun w _ => ⟨e1, fun k hk => ?_⟩)
  simp only [VOp.dst]; rw [Function.update_of_ne hk]; exact e2 k hk

end
end Lis
