import Verif.Model.Lanczos
import Verif.Spec.Lanczos
import Verif.Lemmas.Gmres
import Verif.Lemmas.EsolverExact

namespace Lis
open Matrix Finset

section any
variable {R S : Type} {n : ℕ}
variable [Zero R] [One R] [Add R] [Neg R] [Mul R] [Div R] [Star R] [RealOps S] [EigOps R S]

omit [One R] [Add R] [Neg R] [Mul R] [Div R] [Star R] in
theorem liZero_spec (ss : ℕ) (t : Arr R) (h : ss * ss ≤ t.size) :
    Ok (liZero ss t) fun a => a.size = t.size ∧ ∀ k, k < ss * ss → a.get k = 0 := by
  unfold liZero
  refine Ok_loop_le (fun i (a : Arr R) => a.size = t.size ∧ ∀ k, k < i → a.get k = 0) (Nat.zero_le _)
    ⟨rfl, fun _ h => by omega⟩ ?_ (fun a h => h)
  rintro i a - hi ⟨h1, h2⟩
  rw [Ok_wr]
  refine ⟨by omega, by simpa using h1, fun k hk => ?_⟩
  by_cases hki : k = i
  · subst hki; simp
  · rw [Arr.set_get_ne _ _ hki]; exact h2 k (by omega)

theorem li_idx {ss i k : ℕ} (hi : i < ss) (hk : k < ss) : i * ss + k < ss * ss := by
  calc i * ss + k < i * ss + ss := by omega
    _ = (i + 1) * ss := by ring
    _ ≤ ss * ss := Nat.mul_le_mul_right _ hi

theorem li_inj {ss i k i' k' : ℕ} (hk : k < ss) (hk' : k' < ss) (h : i * ss + k = i' * ss + k') : i = i' ∧ k = k' := by
  have hpos : 0 < ss := by omega
  have e1 : (k + i * ss) / ss = i := by rw [Nat.add_mul_div_right _ _ hpos, Nat.div_eq_of_lt hk, Nat.zero_add]
  have e2 : (k' + i' * ss) / ss = i' := by rw [Nat.add_mul_div_right _ _ hpos, Nat.div_eq_of_lt hk', Nat.zero_add]
  have : i = i' := by rw [← e1, ← e2, Nat.add_comm k, Nat.add_comm k', h]
  subst this
  exact ⟨rfl, by omega⟩

/-- element (i,k) of the matrix `t` -/
def Arr.rm (a : Arr R) (ss i k : ℕ) : R := a.get (i * ss + k)

omit [Zero R] [One R] [Add R] [Neg R] [Mul R] [Div R] [Star R] in
theorem Arr.rm_set {a : Arr R} {ss i k i' k' : ℕ} {v : R} (hk : k < ss) (hk' : k' < ss) :
    (a.set (i * ss + k) v).rm ss i' k' = if i' = i ∧ k' = k then v else a.rm ss i' k' := by
  unfold Arr.rm
  by_cases h : i' = i ∧ k' = k
  · obtain ⟨rfl, rfl⟩ := h
    simp
  · rw [if_neg h, Arr.set_get_ne]
    intro e
    exact h (li_inj hk' hk e)

/-- the state after `i` complete passes, in any arithmetic: `t` is symmetric and tridiagonal with diagonal and
off-diagonal elements from `i` on zero -/
structure LiShape (ss i : ℕ) (t : Arr R) : Prop where
  sz : t.size = ss * ss
  off : ∀ p q, p < ss → q < ss → p + 1 < q ∨ q + 1 < p → t.rm ss p q = 0
  symm : ∀ p, p + 1 < ss → t.rm ss (p + 1) p = t.rm ss p (p + 1)
  diag0 : ∀ p, p < ss → i ≤ p → t.rm ss p p = 0
  off0 : ∀ p, p + 1 < ss → i ≤ p → t.rm ss p (p + 1) = 0

omit [One R] [Add R] [Neg R] [Mul R] [Div R] [Star R] in
theorem LiShape.step {ss i : ℕ} {t : Arr R} (h : LiShape ss i t) (hi : i + 1 < ss) (a b : R) :
    LiShape ss (i + 1) (((t.set (i * ss + i) a).set (i * ss + i + 1) b).set ((i + 1) * ss + i) b) := by
  have e : ∀ p q, q < ss → (((t.set (i * ss + i) a).set (i * ss + (i + 1)) b).set ((i + 1) * ss + i) b).rm ss p q =
      if p = i + 1 ∧ q = i then b else if p = i ∧ q = i + 1 then b else if p = i ∧ q = i then a else t.rm ss p q := by
    intro p q hq
    rw [Arr.rm_set (by omega) hq, Arr.rm_set (by omega) hq, Arr.rm_set (by omega) hq]
  refine ⟨by simpa using h.sz, fun p q hp hq hpq => ?_, fun p hp => ?_, fun p hp hip => ?_, fun p hp hip => ?_⟩ <;>
    rw [show i * ss + i + 1 = i * ss + (i + 1) by omega]
  · rw [e p q hq, if_neg (by omega), if_neg (by omega), if_neg (by omega)]; exact h.off p q hp hq hpq
  · rw [e _ _ (by omega), e _ _ (by omega)]
    by_cases hpi : p = i
    · subst hpi
      rw [if_pos ⟨rfl, rfl⟩, if_neg (by omega), if_pos ⟨rfl, rfl⟩]
    · rw [if_neg (by omega), if_neg (by omega), if_neg (by omega), if_neg (by omega), if_neg (by omega), if_neg (by omega)]
      exact h.symm p hp
  · rw [e _ _ hp, if_neg (by omega), if_neg (by omega), if_neg (by omega)]; exact h.diag0 p hp (by omega)
  · rw [e _ _ hp, if_neg (by omega), if_neg (by omega), if_neg (by omega)]; exact h.off0 p hp (by omega)

/-- the state after the `break` in pass `i-1` -/
structure LiBroken (ss i : ℕ) (t : Arr R) : Prop where
  pos : 0 < i
  lt : i < ss
  sz : t.size = ss * ss
  off : ∀ p q, p < ss → q < ss → p + 1 < q ∨ q + 1 < p → t.rm ss p q = 0
  symm : ∀ p, p + 1 < i → t.rm ss (p + 1) p = t.rm ss p (p + 1)
  low0 : ∀ p, p + 1 < ss → i ≤ p + 1 → t.rm ss (p + 1) p = 0
  diag0 : ∀ p, p < ss → i ≤ p → t.rm ss p p = 0
  off0 : ∀ p, p + 1 < ss → i ≤ p → t.rm ss p (p + 1) = 0

omit [One R] [Add R] [Neg R] [Mul R] [Div R] [Star R] in
theorem LiShape.brk {ss i : ℕ} {t : Arr R} (h : LiShape ss i t) (hi : i + 1 < ss) (a b : R) :
    LiBroken ss (i + 1) ((t.set (i * ss + i) a).set (i * ss + i + 1) b) := by
  have e : ∀ p q, q < ss → ((t.set (i * ss + i) a).set (i * ss + (i + 1)) b).rm ss p q =
      if p = i ∧ q = i + 1 then b else if p = i ∧ q = i then a else t.rm ss p q := by
    intro p q hq
    rw [Arr.rm_set (by omega) hq, Arr.rm_set (by omega) hq]
  refine ⟨by omega, hi, by simpa using h.sz, fun p q hp hq hpq => ?_, fun p hp => ?_, fun p hp hip => ?_, fun p hp hip => ?_,
    fun p hp hip => ?_⟩ <;>
    rw [show i * ss + i + 1 = i * ss + (i + 1) by omega]
  · rw [e p q hq, if_neg (by omega), if_neg (by omega)]; exact h.off p q hp hq hpq
  · rw [e _ _ (by omega), e _ _ (by omega), if_neg (by omega), if_neg (by omega), if_neg (by omega), if_neg (by omega)]
    exact h.symm p (by omega)
  · rw [e _ _ (by omega), if_neg (by omega), if_neg (by omega), h.symm p hp]; exact h.off0 p hp (by omega)
  · rw [e _ _ hp, if_neg (by omega), if_neg (by omega)]; exact h.diag0 p hp (by omega)
  · rw [e _ _ hp, if_neg (by omega), if_neg (by omega)]; exact h.off0 p hp (by omega)

/-- the rule for the loop -/
theorem Ok_liWhile {K : Kit R S n} {body : ℕ → Arr R → Prog R S (Bool × Arr R)} (I B : ℕ → Arr R → MSt R S n → Prop) :
    ∀ (k i : ℕ) (t : Arr R) (s : MSt R S n) {Q : (ℕ × Arr R) × MSt R S n → Prop}, I i t s →
      (∀ j t s, i ≤ j → j < i + k → I j t s → Ok ((body j t).run K s) fun r =>
        (r.1.1 = true → B (j + 1) r.1.2 r.2) ∧ (r.1.1 = false → I (j + 1) r.1.2 r.2)) →
      (∀ t s, I (i + k) t s → Q ((i + k, t), s)) → (∀ j t s, i < j → j ≤ i + k → B j t s → Q ((j, t), s)) →
      Ok ((liWhile body k i t).run K s) Q := by
  intro k
  induction k with
  | zero => intro i t s Q hI _ hq _; simpa [liWhile] using hq t s hI
  | succ k ih =>
    intro i t s Q hI hb hq hB
    simp only [liWhile]
    refine Ok_pbind ((hb i t s (by omega) (by omega) hI).mono ?_)
    rintro ⟨⟨b, t'⟩, s'⟩ ⟨h1, h2⟩
    simp only at h1 h2 ⊢
    cases b with
    | true => exact Ok_ret (hB _ _ _ (by omega) (by omega) (h1 rfl))
    | false =>
      refine ih (i + 1) t' s' (h2 rfl) (fun j st s a1 a2 => hb j st s (by omega) (by omega)) (fun t s h => ?_)
        fun j t s a1 a2 => hB j t s (by omega) (by omega)
      rw [show i + 1 + k = i + (k + 1) by omega] at h ⊢
      exact hq t s h

/-- `beta(j-1)` as used in pass `i` -/
def liB (ss i : ℕ) (t : Arr R) : R := t.get ((i - 1) * ss + i)
/-- the new basis vector before reorthogonalization -/
def liV0 (ss : ℕ) (nrm2 : S) (i : ℕ) (t : Arr R) (x : Fin n → R) : Fin n → R :=
  if i = 0 then fun l => EigOps.ofS (1 / nrm2) * x l else fun l => 1 / liB ss i t * x l
/-- `A v - beta v(j-1)` -/
def liW1 (K : Kit R S n) (ss i : ℕ) (t : Arr R) (p v : Fin n → R) : Fin n → R :=
  if i = 0 then K.mv v else fun l => K.mv v l + -liB ss i t * p l
def liW2 (K : Kit R S n) (v w : Fin n → R) : Fin n → R := fun l => w l + -K.dot v w * v l

theorem liNew_ok (K : Kit R S n) (ss : ℕ) (nrm2 : S) (i : ℕ) (t : Arr R) (s : MSt R S n) (ht : t.size = ss * ss)
    (hi : i + 1 < ss) :
    Ok ((liNew ss nrm2 i t).run K s) fun r => r.2.hist = s.hist ∧
      r.2.h = Function.update (Function.update s.h (liV (i + 1)) (liV0 ss nrm2 i t (s.h (liV (i + 1))))) liR
        (liW1 K ss i t (s.h (liV i)) (liV0 ss nrm2 i t (s.h (liV (i + 1))))) := by
  have hne : liV (i + 1) ≠ liR := by simp only [liV, liR]; omega
  have hne2 : liV i ≠ liR := by simp only [liV, liR]; omega
  have hne3 : liV i ≠ liV (i + 1) := by simp only [liV]; omega
  unfold liNew
  refine Ok_pif (fun h0 => ?_) fun h0 => ?_
  · simp only [vScale, mMatvec]
    refine Ok_vop fun w hw => Ok_vop1 fun w' hw' => ⟨rfl, ?_⟩
    simp only [VOp.dst, VOp.val, Function.update_self] at hw hw' ⊢
    unfold liV0 liW1
    rw [if_pos h0, if_pos h0, hw', hw]
  · have hidx : (i - 1) * ss + i < t.size := by rw [ht]; exact li_idx (by omega) (by omega)
    simp only [vScale, mMatvec, vAxpy]
    refine Ok_aRd hidx (Ok_vop fun w hw => Ok_vop fun w' hw' => Ok_aRd hidx (Ok_vop1 fun w'' hw'' => ⟨rfl, ?_⟩))
    simp only [VOp.dst, VOp.val, Function.update_self, Function.update_of_ne hne, Function.update_of_ne hne.symm,
      Function.update_of_ne hne2, Function.update_of_ne hne3, Function.update_idem] at hw hw' hw'' ⊢
    unfold liV0 liW1 liB
    rw [if_neg h0, if_neg h0, hw'', hw', hw]

theorem liReorth_ok (K : Kit R S n) (i : ℕ) (s : MSt R S n) :
    Ok ((liReorth i : Prog R S Unit).run K s) fun r => r.2.hist = s.hist ∧
      ∃ v1, r.2.h = Function.update s.h (liV (i + 1)) v1 ∧
        ((∀ k, 1 ≤ k → k ≤ i → (fun l => s.h (liV (i + 1)) l + -K.dot (s.h (liV (i + 1))) (s.h (liV k)) * s.h (liV k) l) =
          s.h (liV (i + 1))) → v1 = s.h (liV (i + 1))) := by
  unfold liReorth
  simp only [vDot, vAxpy]
  refine Ok_pfor (fun k _ s' => s'.hist = s.hist ∧ ∃ v1, s'.h = Function.update s.h (liV (i + 1)) v1 ∧
      ((∀ k', 1 ≤ k' → k' ≤ i → (fun l => s.h (liV (i + 1)) l + -K.dot (s.h (liV (i + 1))) (s.h (liV k')) * s.h (liV k') l) =
          s.h (liV (i + 1))) → v1 = s.h (liV (i + 1)))) i 1 () s ⟨rfl, _, (Function.update_eq_self _ _).symm, fun _ => rfl⟩ ?_ ?_
  · rintro k _ s' h1 h2 ⟨e1, v1, e2, e3⟩
    refine Ok_red fun d hd => Ok_vop1 fun w hw => ⟨e1, w, ?_, fun h => ?_⟩
    · simp only [VOp.dst, e2, Function.update_idem]
    · have hne : liV k ≠ liV (i + 1) := by simp only [liV]; omega
      simp only [VOp.val, VRed.run, e2, Function.update_self, Function.update_of_ne hne, e3 h] at hw hd
      rw [hw, hd]
      exact h k h1 (by omega)
  · rintro _ s' h
    exact h

theorem liStep_ok (K : Kit R S n) (lt : S → S → Bool) (tol : S) (ss : ℕ) (nrm2 : S) (i : ℕ) (t : Arr R) (s : MSt R S n)
    (ht : t.size = ss * ss) (hi : i + 1 < ss) :
    Ok ((liStep lt tol ss nrm2 i t).run K s) fun r => r.2.hist = s.hist ∧ ∃ v0 w1 w2 v1 : Fin n → R, ∃ a b : R,
      v0 = liV0 ss nrm2 i t (s.h liR) ∧ w1 = liW1 K ss i t (s.h (liV i)) v0 ∧ a = K.dot v0 w1 ∧
      w2 = (fun l => w1 l + -a * v0 l) ∧ b = EigOps.ofS (K.nrm2 w2) ∧
      r.2.h = Function.update (Function.update s.h (liV (i + 1)) v1) liR w2 ∧
      ((∀ k, 1 ≤ k → k ≤ i → (fun l => v0 l + -K.dot v0 (s.h (liV k)) * s.h (liV k) l) = v0) → v1 = v0) ∧
      r.1.1 = lt (EigOps.fabs b) tol ∧
      r.1.2 = if lt (EigOps.fabs b) tol then (t.set (i * ss + i) a).set (i * ss + i + 1) b
        else ((t.set (i * ss + i) a).set (i * ss + i + 1) b).set ((i + 1) * ss + i) b := by
  have hne : liV (i + 1) ≠ liR := by simp only [liV, liR]; omega
  have hne3 : ∀ k, k ≤ i → liV k ≠ liV (i + 1) := fun k hk => by simp only [liV]; omega
  have hneR : ∀ k, liV k ≠ liR := fun k => by simp only [liV, liR]; omega
  have hx1 : i * ss + i < ss * ss := li_idx (by omega) (by omega)
  have hx2 : i * ss + i + 1 < ss * ss := li_idx (k := i + 1) (by omega) (by omega)
  have hx3 : (i + 1) * ss + i < ss * ss := li_idx (by omega) (by omega)
  unfold liStep
  simp only [vCopy, vDot, vAxpy, vNrm2]
  refine Ok_vop fun c hc => ?_
  refine Ok_pbind ((liNew_ok K ss nrm2 i t _ ht hi).mono ?_)
  rintro ⟨_, s1⟩ ⟨e1, e2⟩
  simp only [VOp.dst, VOp.val, Function.update_self, Function.update_of_ne (hne3 i le_rfl), Function.update_idem] at e1 e2 hc ⊢
  refine Ok_red fun a ha => Ok_aWr (by omega) (Ok_aRd (by simpa [ht] using hx1) (Ok_vop fun w2 hw2 => ?_))
  refine Ok_pbind ((liReorth_ok K i _).mono ?_)
  rintro ⟨_, s2⟩ ⟨e3, v1, e4, e5⟩
  simp only at e3 e4 e5 ⊢
  refine Ok_norm fun b hb => Ok_aWr (by simpa [ht] using hx2) (Ok_aRd (by simpa [ht] using hx2) ?_)
  subst hc
  simp only [VOp.dst, VOp.val, VRed.run, VNorm.run, Arr.set_get_self, e2, Function.update_self, Function.update_of_ne hne,
    Function.update_of_ne hne.symm] at ha hw2 e4 e5 hb ⊢
  have e4' : s2.h = Function.update (Function.update s.h (liV (i + 1)) v1) liR w2 := by
    rw [e4]
    funext k
    by_cases h1 : k = liR
    · subst h1; rw [Function.update_of_ne hne.symm, Function.update_self, Function.update_self]
    · by_cases h2 : k = liV (i + 1)
      · subst h2; rw [Function.update_self, Function.update_of_ne hne, Function.update_self]
      · simp only [Function.update_of_ne h1, Function.update_of_ne h2]
  rw [e4', Function.update_self] at hb
  subst hb
  have e5' : ((∀ k, 1 ≤ k → k ≤ i → (fun l => liV0 ss nrm2 i t (s.h liR) l +
      -K.dot (liV0 ss nrm2 i t (s.h liR)) (s.h (liV k)) * s.h (liV k) l) = liV0 ss nrm2 i t (s.h liR)) →
      v1 = liV0 ss nrm2 i t (s.h liR)) := by
    intro h
    refine e5 fun k h1 h2 => ?_
    rw [Function.update_of_ne (hneR k), Function.update_of_ne (hneR k), Function.update_of_ne (hne3 k h2)]
    exact h k h1 h2
  refine Ok_pif (fun hl => Ok_ret ⟨e3.trans e1, _, _, w2, v1, a, _, rfl, rfl, ha, hw2, rfl, e4', e5', ?_, ?_⟩)
    fun hl => Ok_aWr (by simpa [ht] using hx3)
      (Ok_ret ⟨e3.trans e1, _, _, w2, v1, a, _, rfl, rfl, ha, hw2, rfl, e4', e5', ?_, ?_⟩)
  · exact hl.symm
  · exact (if_pos hl).symm
  · simpa using hl
  · exact (if_neg hl).symm

end any
end Lis
