import Verif.Lemmas.Solver2
import Verif.Props.SolverStatus
import Verif.Props.SolverResidual

/-!
# C25: lis_orthomin
-/

namespace Lis
variable {R S : Type} {n : ℕ}

/-- index arithmetic of the work vectors -/
macro "omidx" : tactic => `(tactic| (try simp only [omP, omAp, omApt, wk, hX, hB]) <;> omega)

section status
variable [Zero R] [One R] [Add R] [Neg R] [Mul R] [Div R] [Sub R] [Star R] [DecidableEq R] [RealOps S]

/-- the saved reciprocals: one for each of the directions kept -/
def OmSaved (m i : ℕ) (ds : Arr (Option R)) : Prop := ds.size = m + 1 ∧ ∀ l, l < min m (i - 1) → ds.get l ≠ none

omit [Zero R] [One R] [Neg R] [Div R] [Sub R] [DecidableEq R] [RealOps S] in
theorem Ok_orthominShift {K : Kit R S n} {α : Type} {f : Arr (Option R) → Prog R S α} {s : MSt R S n}
    {Q : α × MSt R S n → Prop} : ∀ (k : ℕ) (ds : Arr (Option R)), k < ds.size →
      (∀ ds' : Arr (Option R), ds'.size = ds.size → (∀ l, 1 ≤ l → l ≤ k → ds'.get l = ds.get (l - 1)) →
        (∀ l, k < l → ds'.get l = ds.get l) → Ok ((f ds').run K s) Q) →
      Ok ((orthominShift k ds >>= f).run K s) Q := by
  intro k
  induction k with
  | zero =>
    intro ds hk h
    exact h ds rfl (fun l _ _ => by omega) fun l _ => rfl
  | succ k ih =>
    intro ds hk h
    refine Ok_pbind ?_
    refine Ok_aRd (by omega) (Ok_aWr (by omega) ?_)
    have := ih (ds.set (k + 1) (ds.get k)) (by simpa using by omega) fun ds' h1 h2 h3 => h ds' (by simpa using h1) (fun l hl1 hl2 => ?_)
        fun l hl => ?_
    · rwa [Prog.run_bind, Ok_obind] at this
    · by_cases hlk : l = k + 1
      · subst hlk
        rw [h3 _ (by omega), Arr.set_get_self]
        rfl
      · rw [h2 l hl1 (by omega), Arr.set_get_ne _ _ (by omega)]
    · rw [h3 l (by omega), Arr.set_get_ne _ _ (by omega)]

omit [Zero R] [One R] [Div R] [Sub R] [DecidableEq R] [RealOps S] in
theorem orthominOrth_ok (K : Kit R S n) (m ip lmax : ℕ) (ds : Arr (Option R)) (s : MSt R S n) (hsz : lmax ≤ ds.size)
    (hd : ∀ l, l < lmax → ds.get l ≠ none) :
    Ok ((orthominOrth m ip lmax ds).run K s) fun r => r.2.hist = s.hist ∧
      ∀ k, k ≠ omP ip → k ≠ omAp m ip → k ≠ omApt m ip → r.2.h k = s.h k := by
  unfold orthominOrth
  refine Ok_pfor (fun _ _ s' => s'.hist = s.hist ∧
      ∀ k, k ≠ omP ip → k ≠ omAp m ip → k ≠ omApt m ip → s'.h k = s.h k) lmax 1 () s ⟨rfl, fun _ _ _ _ => rfl⟩ ?_ ?_
  · rintro l - s' h1 h2 ⟨hh, hk⟩
    simp only [vDot]
    refine Ok_red fun b _ => ?_
    refine Ok_aUse (by omega) (hd _ (by omega)) fun d _ => ?_
    simp only [vAxpy]
    refine Ok_vop fun w1 _ => Ok_vop fun w2 _ => ?_
    refine Ok_vop1 fun w3 _ => ?_
    refine ⟨hh, fun k k1 k2 k3 => ?_⟩
    simp only [VOp.dst]
    rw [Function.update_of_ne k3, Function.update_of_ne k2, Function.update_of_ne k1, hk k k1 k2 k3]
  · rintro - s' h
    exact h

theorem orthominBody_ok (m : ℕ) (K : Kit R S n) (o : Opts R S) (t : Tols S) (i : ℕ) (st : Arr (Option R) × S)
    (s : MSt R S n) (h1 : 1 ≤ i) (hi : i < s.hist.size) (hJ : OmSaved m i st.1) :
    Ok ((orthominBody m o t i st).run K s) fun r => IterOk o t.tol
      (fun h => ∃ j, j ≤ m ∧ K.dot (h (omApt m j)) (h (omApt m j)) = 0) i st.2 s r ∧
        ∀ st', r.1 = .inl st' → OmSaved m (i + 1) st'.1 := by
  obtain ⟨hds, hdn⟩ := hJ
  unfold orthominBody
  have hip : (i - 1) % (m + 1) ≤ m := Nat.lt_succ_iff.1 (Nat.mod_lt _ (by omega))
  generalize (i - 1) % (m + 1) = ip at *
  unfold orthominStep
  simp only [vCopy, mMatvec, mPsolve]
  refine Ok_vop fun w1 _ => Ok_vop fun w2 _ => Ok_vop fun w3 _ => Ok_pbind ?_
  refine (orthominOrth_ok K m ip _ st.1 _ (by omega) hdn).mono ?_
  rintro ⟨_, s'⟩ ⟨hh, hk⟩
  simp only [VOp.dst] at hh hk
  refine Ok_orthominShift (m - 1) st.1 (by omega) fun ds' e1 e2 e3 => ?_
  simp only [vDot]
  refine Ok_red fun d hd => Ok_aWr (by omega) ?_
  have hB' : s'.h hB = s.h hB := by
    rw [hk hB (by omidx) (by omidx) (by omidx)]
    rw [Function.update_of_ne (by omidx), Function.update_of_ne (by omidx), Function.update_of_ne (by omidx)]
  refine Ok_pif (fun h0 => Ok_ret ?_) fun h0 => ?_
  · refine ⟨⟨hB', rfl, .inr ⟨rfl, ⟨ip, hip, ?_⟩, .inl ⟨rfl, hh⟩⟩⟩, fun st' h => by cases h⟩
    rw [← h0, hd]; rfl
  · refine Ok_aWr (by simpa using by omega) (Ok_red fun al _ => ?_)
    simp only [vAxpy]
    refine Ok_vop fun w4 _ => Ok_vop fun w5 _ => Ok_vop fun w6 _ => ?_
    refine Ok_checkResid (by simp only; rw [hh]; exact hi) fun v a _ hrec => ?_
    have hB2 : Function.update (Function.update (Function.update s'.h hX w4) (wk 0) w5) (wk 1) w6 hB = s.h hB := by
      rw [Function.update_of_ne (by decide), Function.update_of_ne (by decide), Function.update_of_ne (by decide), hB']
    simp only [hh] at hrec
    refine Ok_pif (fun hle => Ok_ret ?_) fun hle => Ok_ret ?_
    · exact ⟨⟨hB2, rfl, .inl ⟨rfl, hle, hrec⟩⟩, fun st' h => by cases h⟩
    · refine ⟨⟨hB2, hle, hrec⟩, fun st' h => ?_⟩
      cases h
      refine ⟨by simp; omega, fun l hl => ?_⟩
      simp only
      by_cases hl0 : l = 0
      · subst hl0
        rw [Arr.set_get_self]; simp
      · rw [Arr.set_get_ne _ _ (by omega), Arr.set_get_ne _ _ (by omega), e2 l (by omega) (by omega)]
        exact hdn _ (by omega)

/-- C25: status contract of `lis_orthomin` (any restart `m`); it never uses an element of `dotsave` that it has not
assigned -/
theorem lisOrthomin_status (m : ℕ) (K : Kit R S n) (o : Opts R S) (junk : S) (s : MSt R S n)
    (hsz : o.maxiter < s.hist.size) :
    Ok ((lisOrthomin m junk o).run K s) fun r => Contract K o junk
      (fun h => ∃ j, j ≤ m ∧ K.dot (h (omApt m j)) (h (omApt m j)) = 0) s r.2 r.1 := by
  unfold lisOrthomin
  refine Ok_solver (by decide) fun hinit => ?_
  simp only [mPsolve]
  refine Ok_vop fun w _ => ?_
  refine Ok_mainLoopI (OmSaved m) hinit hsz ?_ rfl ⟨rfl, fun l hl => by omega⟩
    fun i st s2 h1 hi hJ => orthominBody_ok m K o _ i st s2 h1 hi hJ
  vlook

end status

section residual
variable [CommRing R] [Div R] [Star R] [DecidableEq R] [RealOps S]

omit [Div R] [DecidableEq R] [RealOps S] in
/-- the `i`-th direction and its product belong together -/
def OmPair (K : Kit R S n) (m i : ℕ) (h : MHeap R n) : Prop := ∀ j, h (omAp m i) j = K.mv (h (omP i)) j

theorem om_ip0 {m ip l : ℕ} (hip : ip ≤ m) (h1 : 1 ≤ l) (h2 : l ≤ m) :
    (ip + m + 1 - l) % (m + 1) ≤ m ∧ (ip + m + 1 - l) % (m + 1) ≠ ip ∧
      (l ≤ ip → (ip + m + 1 - l) % (m + 1) < ip) := by
  refine ⟨Nat.lt_succ_iff.1 (Nat.mod_lt _ (by omega)), ?_, fun h => ?_⟩
  · by_cases h : l ≤ ip
    · rw [show ip + m + 1 - l = (ip - l) + (m + 1) by omega, Nat.add_mod_right, Nat.mod_eq_of_lt (by omega)]
      omega
    · rw [Nat.mod_eq_of_lt (by omega)]
      omega
  · rw [show ip + m + 1 - l = (ip - l) + (m + 1) by omega, Nat.add_mod_right, Nat.mod_eq_of_lt (by omega)]
    omega

theorem orthominOrth_res (K : Kit R S n) (hlin : K.Linear) (m ip lmax : ℕ) (ds : Arr (Option R)) (s : MSt R S n)
    (hsz : lmax ≤ ds.size) (hd : ∀ l, l < lmax → ds.get l ≠ none) (hip : ip ≤ m) (hl : lmax ≤ m)
    (hp : OmPair K m ip s.h) (hq : ∀ l, 1 ≤ l → l ≤ lmax → OmPair K m ((ip + m + 1 - l) % (m + 1)) s.h) :
    Ok ((orthominOrth m ip lmax ds).run K s) fun r => OmPair K m ip r.2.h := by
  unfold orthominOrth
  refine Ok_pfor (fun _ _ s' => OmPair K m ip s'.h ∧
      ∀ k, k ≠ omP ip → k ≠ omAp m ip → k ≠ omApt m ip → s'.h k = s.h k) lmax 1 () s ⟨hp, fun _ _ _ _ => rfl⟩ ?_ ?_
  · rintro l - s' h1 h2 ⟨hh, hk⟩
    simp only [vDot]
    refine Ok_red fun b _ => ?_
    refine Ok_aUse (by omega) (hd _ (by omega)) fun d _ => ?_
    simp only [vAxpy]
    obtain ⟨i1, i2, -⟩ := om_ip0 (l := l) hip h1 (by omega)
    have hq' := hq l h1 (by omega)
    generalize (ip + m + 1 - l) % (m + 1) = ip0 at *
    refine Ok_vopL hlin fun w1 l1 => Ok_vop fun w2 l2 => ?_
    refine Ok_vop1 fun w3 _ => ?_
    simp only [VOp.dst, VOp.Lin, VOp.val] at *
    refine ⟨fun j => ?_, fun k k1 k2 k3 => ?_⟩
    · rw [Function.update_of_ne (by omidx), Function.update_self,
        Function.update_of_ne (by omidx),
        Function.update_of_ne (by omidx), Function.update_self, l1.2, l2]
      beta_reduce
      rw [Function.update_of_ne (by omidx),
        Function.update_of_ne (by omidx), hh j,
        hk (omAp m ip0) (by omidx) (by omidx) (by omidx),
        hk (omP ip0) (by omidx) (by omidx) (by omidx),
        hq' j]
    · rw [Function.update_of_ne k3, Function.update_of_ne k2, Function.update_of_ne k1, hk k k1 k2 k3]
  · rintro - s' h
    exact h.1

/-- invariant of the loop -/
def OmInv (K : Kit R S n) (m i : ℕ) (ds : Arr (Option R)) (h : MHeap R n) : Prop :=
  OmSaved m i ds ∧ HoldsRes K (wk 0) h ∧ ∀ k, k ≤ m → k < i - 1 → OmPair K m k h

theorem orthominBody_res (m : ℕ) (K : Kit R S n) (hlin : K.Linear) (o : Opts R S) (t : Tols S) (i : ℕ)
    (st : Arr (Option R) × S) (s : MSt R S n) (h1 : 1 ≤ i) (hi : i < s.hist.size) (hJ : OmInv K m i st.1 s.h) :
    Ok ((orthominBody m o t i st).run K s) fun r => IterRes K o t.bnrm (OmInv K m) i st.2 s r ∧
      r.2.hist.size = s.hist.size := by
  obtain ⟨⟨hds, hdn⟩, hr, hpr⟩ := hJ
  unfold orthominBody
  have hip : (i - 1) % (m + 1) ≤ m := Nat.lt_succ_iff.1 (Nat.mod_lt _ (by omega))
  have hip1 : i - 1 ≤ m → (i - 1) % (m + 1) = i - 1 := fun h => Nat.mod_eq_of_lt (by omega)
  generalize (i - 1) % (m + 1) = ip at *
  unfold orthominStep
  simp only [vCopy, mMatvec, mPsolve]
  refine Ok_vop fun w1 _ => Ok_vop fun w2 hw2 => Ok_vop fun w3 _ => Ok_pbind ?_
  simp only [VOp.dst, VOp.val] at *
  have hold : ∀ k, k ≠ omP ip → k ≠ omAp m ip → k ≠ omApt m ip →
      Function.update (Function.update (Function.update s.h (omP ip) w1) (omAp m ip) w2) (omApt m ip) w3 k = s.h k := by
    intro k k1 k2 k3
    rw [Function.update_of_ne k3, Function.update_of_ne k2, Function.update_of_ne k1]
  have hpair : ∀ k, k ≤ m → k ≠ ip → OmPair K m k s.h → OmPair K m k (Function.update (Function.update (Function.update s.h (omP ip) w1) (omAp m ip) w2) (omApt m ip) w3) := by
    intro k k1 k2 h j
    rw [hold (omP k) (by omidx) (by omidx) (by omidx),
      hold (omAp m k) (by omidx) (by omidx) (by omidx)]
    exact h j
  have hnew : OmPair K m ip (Function.update (Function.update (Function.update s.h (omP ip) w1) (omAp m ip) w2) (omApt m ip) w3) := by
    intro j
    rw [Function.update_of_ne (by omidx), Function.update_self,
      Function.update_of_ne (by omidx),
      Function.update_of_ne (by omidx), Function.update_self, hw2, Function.update_self]
  generalize Function.update (Function.update (Function.update s.h (omP ip) w1) (omAp m ip) w2) (omApt m ip) w3 = h1' at *
  refine ((orthominOrth_ok K m ip _ st.1 ⟨h1', s.hist⟩ (by omega) hdn).conj
    (orthominOrth_res K hlin m ip _ st.1 ⟨h1', s.hist⟩ (by omega) hdn hip (by omega) hnew fun l l1 l2 => ?_)).mono ?_
  · obtain ⟨i1, i2, i3⟩ := om_ip0 (l := l) hip l1 (by omega)
    refine hpair _ i1 i2 (hpr _ i1 ?_)
    by_cases him : i - 1 ≤ m
    · have := hip1 him
      have := i3 (by omega)
      omega
    · omega
  rintro ⟨_, s'⟩ ⟨⟨hh, hk⟩, hres⟩
  simp only at hh hk hres
  refine Ok_orthominShift (m - 1) st.1 (by omega) fun ds' e1 e2 e3 => ?_
  simp only [vDot]
  refine Ok_red fun d hd => Ok_aWr (by omega) ?_
  have keep : ∀ k, k ≠ omP ip → k ≠ omAp m ip → k ≠ omApt m ip → s'.h k = s.h k := fun k k1 k2 k3 =>
    (hk k k1 k2 k3).trans (hold k k1 k2 k3)
  have hB' : s'.h hB = s.h hB := keep hB (by omidx) (by omidx) (by omidx)
  have hX' : s'.h hX = s.h hX := keep hX (by omidx) (by omidx) (by omidx)
  have hR' : s'.h (wk 0) = s.h (wk 0) := keep _ (by omidx) (by omidx) (by omidx)
  refine Ok_pif (fun h0 => Ok_ret ?_) fun h0 => ?_
  · exact ⟨.inr ⟨rfl, rfl, rfl, hX', hB'⟩, by rw [hh]⟩
  · refine Ok_aWr (by simpa using by omega) (Ok_red fun al _ => ?_)
    simp only [vAxpy]
    refine Ok_vopL hlin fun w4 l4 => Ok_vopL hlin fun w5 l5 => Ok_vopL hlin fun w6 l6 => ?_
    simp only [VOp.dst, VOp.Lin] at *
    have hfin : HoldsRes K (wk 0) (Function.update (Function.update (Function.update s'.h hX w4) (wk 0) w5) (wk 1) w6) := by
      intro j
      rw [Function.update_of_ne (by decide), Function.update_self, Function.update_of_ne (a := hB) (by decide),
        Function.update_of_ne (a := hB) (by decide), Function.update_of_ne (a := hB) (by decide),
        Function.update_of_ne (a := hX) (by decide), Function.update_of_ne (a := hX) (by decide), Function.update_self,
        l4.2, l5.1, Function.update_of_ne (a := wk 0) (by decide), Function.update_of_ne (a := omAp m ip) (by omidx),
        hR', hB', hX', hr j, hres j]
      ring
    have hpf : ∀ k, k ≤ m → k < i + 1 - 1 → OmPair K m k (Function.update (Function.update (Function.update s'.h hX w4) (wk 0) w5) (wk 1) w6) := by
      intro k k1 k2 j
      have e : ∀ q, 2 ≤ q → Function.update (Function.update (Function.update s'.h hX w4) (wk 0) w5) (wk 1) w6 (wk q) = s'.h (wk q) := by
        intro q hq
        rw [Function.update_of_ne (by omidx), Function.update_of_ne (by omidx),
          Function.update_of_ne (by omidx)]
      rw [e _ (by omega), e _ (by omega)]
      by_cases hki : k = ip
      · subst hki; exact hres j
      · have hki' : k < i - 1 := by
          by_cases him : i - 1 ≤ m
          · have := hip1 him; omega
          · omega
        have := hpair k k1 hki (hpr k k1 hki') j
        rw [hk (omAp m k) (by omidx) (by omidx) (by omidx),
          hk (omP k) (by omidx) (by omidx) (by omidx)]
        exact this
    refine Ok_checkResid (by simp only; rw [hh]; exact hi) fun v a hv hrec => ?_
    simp only [hh] at hrec
    refine Ok_pif (fun hle => Ok_ret ?_) fun hle => Ok_ret ?_
    · exact ⟨.inl (resOf_of hv fun j => hfin j), hrec.size⟩
    · refine ⟨⟨⟨⟨by simp; omega, fun l hl => ?_⟩, hfin, hpf⟩, resOf_of hv fun j => hfin j⟩, hrec.size⟩
      simp only
      by_cases hl0 : l = 0
      · subst hl0
        rw [Arr.set_get_self]; simp
      · rw [Arr.set_get_ne _ _ (by omega), Arr.set_get_ne _ _ (by omega), e2 l (by omega) (by omega)]
        exact hdn _ (by omega)

/-- C25: as C23, for `lis_orthomin` -/
theorem lisOrthomin_residual (m : ℕ) (K : Kit R S n) (hlin : K.Linear) (o : Opts R S) (junk : S) (s : MSt R S n)
    (hsz : o.maxiter < s.hist.size) (hz : o.initZero → s.h hX = 0) :
    Ok ((lisOrthomin m junk o).run K s) fun r => ReportsTrue K o junk s r.2 r.1 := by
  unfold lisOrthomin
  refine Ok_solverRes hlin (by decide) hz fun w hw => ?_
  simp only [mPsolve]
  refine Ok_vop fun w2 _ => ?_
  refine Ok_mainLoopRes (s := s) (OmInv K m) hsz ⟨⟨rfl, fun l hl => by omega⟩, ?_, fun k _ hk => by omega⟩
    fun i st s2 h1 hi hI => orthominBody_res m K hlin o _ i st s2 h1 hi hI
  unfold HoldsRes
  simp only [VOp.dst]
  intro j
  rw [Function.update_of_ne (by decide), Function.update_self, Function.update_of_ne (by decide),
    Function.update_of_ne (by decide), Function.update_of_ne (by decide), Function.update_of_ne (by decide), hw]

end residual
end Lis
