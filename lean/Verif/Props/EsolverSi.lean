import Verif.Lemmas.EsolverSi

/-!
# C61: subspace iteration (`lis_esi`)

Arithmetic is arbitrary here (no laws): the statements hold of the floating-point program.
-/

namespace Lis
variable {R S M : Type} {n : ℕ}
variable [Zero R] [One R] [Add R] [Neg R] [Sub R] [Mul R] [Div R] [Star R] [DecidableEq R] [RealOps S] [EigOps R S]

omit [Sub R] [Star R] in
theorem siEnds_eq (K : EKit R S M n) (lt : S → S → Bool) (inner : SiInner) (o : EOpts R S) (m : M) (q : SiPt R S n) :
    ∀ j, siEnds K lt inner o m q j = (List.range j).map (siMode' K lt inner o m q) := by
  intro j
  induction j with
  | zero => rfl
  | succ j ih => rw [List.range_succ, List.map_append, ← ih]; rfl

/-- what mode `j` (counted from 0) ends with: an error of creating the preconditioner or else of the linear solver -/
def siErr (K : EKit R S M n) (lt : S → S → Bool) (inner : SiInner) (perr : ℕ → Err) (o : EOpts R S) (m : M)
    (q : SiPt R S n) (j : ℕ) : Err :=
  if siPrecon inner perr (j + 1) ≠ .success then siPrecon inner perr (j + 1) else (siMode' K lt inner o m q j).err

/-- what is reported for mode `j` -/
def siRes (K : EKit R S M n) (lt : S → S → Bool) (inner : SiInner) (o : EOpts R S) (m : M) (q : SiPt R S n) (j : ℕ) :
    Option (ℕ × S × R) :=
  siValue inner o (siIter K lt inner o m q j) (siMode' K lt inner o m q j).theta (siMode' K lt inner o m q j).resid

/-- the modes from `j` on -/
theorem siModes_ok (K : EKit R S M n) (lt : S → S → Bool) (inner : SiInner) (perr : ℕ → Err) (ss : ℕ) (o : EOpts R S)
    (m : M) (q0 : SiPt R S n) (s0 : ESt R S M n) (hsz : o.maxiter < s0.hist.size) :
    ∀ k j (s : ESt R S M n) (q : SiPt R S n), j + k = ss → s.m = m →
      q = (siEnds K lt inner o m q0 j).getLast?.getD q0 → q.err = .success → s.h 1 = q.v →
      (∀ i, i < j → s.h (3 + (i + 1)) = (siMode' K lt inner o m q0 i).v) →
      (∀ i, i < j → s.h (ss + 5 + i) = (siMode' K lt inner o m q0 i).v) →
      (∀ i, i < j → siErr K lt inner perr o m q0 i = .success) →
      s.hist.size = s0.hist.size →
      (0 < j → o.mem = true → ∀ l, 1 ≤ l → l ≤ siIter K lt inner o m q0 0 →
        ((siStep K inner m [])^[l] q0).err = .success → s.hist.get l = ((siStep K inner m [])^[l] q0).resid) →
      (∀ l, (o.mem = false ∨ j = 0 ∨ l = 0 ∨ siIter K lt inner o m q0 0 < l) → s.hist.get l = s0.hist.get l) →
      Ok ((siModes lt inner perr ss o k j ((List.range j).map (siRes K lt inner o m q0)) (q.theta, q.resid)).run K s) fun r =>
        r.2.m = m ∧ r.2.hist.size = s0.hist.size ∧
        (∀ l, (o.mem = false ∨ l = 0 ∨ siIter K lt inner o m q0 0 < l) → r.2.hist.get l = s0.hist.get l) ∧
        (0 < ss → siPrecon inner perr 1 = .success → o.mem = true → ∀ l, 1 ≤ l → l ≤ siIter K lt inner o m q0 0 →
          ((siStep K inner m [])^[l] q0).err = .success → r.2.hist.get l = ((siStep K inner m [])^[l] q0).resid) ∧
        ((∀ i, i < ss → siErr K lt inner perr o m q0 i = .success) →
          r.1 = ⟨.success, (List.range ss).map (siRes K lt inner o m q0)⟩ ∧
          ∀ i, i < ss → r.2.h (ss + 5 + i) = (siMode' K lt inner o m q0 i).v) ∧
        (∀ i, i < ss → siErr K lt inner perr o m q0 i ≠ .success → (∀ l, l < i → siErr K lt inner perr o m q0 l = .success) →
          r.1 = ⟨siErr K lt inner perr o m q0 i, (List.range i).map (siRes K lt inner o m q0)⟩) := by
  intro k
  induction k with
  | zero =>
    intro j s q hj hm hq he hv h1 h2 h3 h4 h5 h6
    have hjs : j = ss := by omega
    subst hjs
    simp only [siModes, EProg.run_pure, Ok_some]
    refine ⟨hm, h4, fun l hl => h6 l (by rcases hl with h | h | h <;> simp [h]), fun hp _ => h5 hp,
      fun _ => ⟨trivial, h2⟩, fun i hi hne => absurd (h3 i hi) hne⟩
  | succ k ih =>
    intro j s q hj hm hq he hv h1 h2 h3 h4 h5 h6
    unfold siModes
    have hvs : (siEnds K lt inner o m q0 j).map SiPt.v = (List.range (j + 1 - 1)).map fun i => s.h (3 + (i + 1)) := by
      rw [siEnds_eq, List.map_map]
      refine List.map_congr_left fun i hi => ?_
      rw [List.mem_range] at hi
      exact (h1 i (by omega)).symm
    have hz : j = 0 → q = q0 ∧ (siEnds K lt inner o m q0 j).map SiPt.v = [] := by
      intro h; rw [hq, h]; exact ⟨rfl, rfl⟩
    by_cases hp : siPrecon inner perr (j + 1) = .success
    · have hI : siIters K lt inner o m ((siEnds K lt inner o m q0 j).map SiPt.v) q = siIter K lt inner o m q0 j := by
        rw [hq]; rfl
      have hL : siLast K lt inner o m ((siEnds K lt inner o m q0 j).map SiPt.v) q = siMode' K lt inner o m q0 j := by
        rw [hq]; rfl
      rw [EProg.run_bind, Ok_obind]
      refine (siMode_ok K lt inner perr ss o (j + 1) (by omega) (by omega) s (by omega) _ hvs q he hv hp).mono ?_
      rw [hm, hI, hL]
      rintro ⟨⟨e, it, th, rs⟩, s'⟩ ⟨b1, b2, b3, b4, b5, b6, b7⟩
      simp only [Prod.mk.injEq] at b1 b2 b3 b4 b5 b6 b7 ⊢
      obtain ⟨rfl, rfl, rfl, rfl⟩ := b1
      have hE : siErr K lt inner perr o m q0 j = (siMode' K lt inner o m q0 j).err := by
        unfold siErr; rw [if_neg (by simp [hp])]
      -- the history
      have g5 : o.mem = true → ∀ l, 1 ≤ l → l ≤ siIter K lt inner o m q0 0 →
          ((siStep K inner m [])^[l] q0).err = .success → s'.hist.get l = ((siStep K inner m [])^[l] q0).resid := by
        intro hmem l l1 l2 l3
        by_cases h0 : j = 0
        · obtain ⟨z1, z2⟩ := hz h0
          subst h0
          rw [z1, z2] at b6
          exact b6 hmem rfl l l1 l2 l3
        · rw [b7 l (Or.inr (Or.inl (by omega)))]
          exact h5 (by omega) hmem l l1 l2 l3
      have g6 : ∀ l, (o.mem = false ∨ l = 0 ∨ siIter K lt inner o m q0 0 < l) → s'.hist.get l = s0.hist.get l := by
        intro l hl
        by_cases h0 : j = 0
        · subst h0
          rw [b7 l (by rcases hl with h | h | h <;> simp [h])]
          exact h6 l (Or.inr (Or.inl rfl))
        · rw [b7 l (Or.inr (Or.inl (by omega)))]
          exact h6 l (by rcases hl with h | h | h <;> simp [h])
      rw [EProg.run_ite]
      split
      · rename_i hc
        simp only [EProg.run_pure, Ok_some]
        refine ⟨b2, by rw [b5, h4], g6, fun _ _ => g5, fun h => absurd ((hE ▸ h j (by omega))) hc, fun i hi hne hlt => ?_⟩
        have : i = j := by
          rcases lt_trichotomy i j with h | h | h
          · exact absurd (h3 i h) hne
          · exact h
          · exact absurd (hE ▸ hlt j h) hc
        rw [this, hE]
      · rename_i hc
        rw [not_not] at hc
        obtain ⟨c1, c2, c3⟩ := b4 hc
        have hrange : (List.range j).map (siRes K lt inner o m q0) ++ [siValue inner o (siIter K lt inner o m q0 j)
            (siMode' K lt inner o m q0 j).theta (siMode' K lt inner o m q0 j).resid] =
            (List.range (j + 1)).map (siRes K lt inner o m q0) := by
          rw [List.range_succ, List.map_append]; rfl
        rw [hrange]
        refine ih (j + 1) s' (siMode' K lt inner o m q0 j) (by omega) b2 ?_ hc c1 ?_ ?_ ?_ (by rw [b5, h4]) (fun _ => g5)
          (fun l hl => g6 l (by rcases hl with h | h | h | h <;> first | omega | simp [h]))
        · rw [show siEnds K lt inner o m q0 (j + 1) = siEnds K lt inner o m q0 j ++ [siMode' K lt inner o m q0 j] from rfl]
          simp
        · intro i hi
          by_cases h : i = j
          · subst h; exact c2
          · rw [b3 _ (by omega) (by omega) (by omega) (by omega)]; exact h1 i (by omega)
        · intro i hi
          by_cases h : i = j
          · subst h; rw [show ss + 5 + i = ss + 4 + (i + 1) by omega]; exact c3
          · rw [b3 _ (by omega) (by omega) (by omega) (by omega)]; exact h2 i (by omega)
        · intro i hi
          by_cases h : i = j
          · subst h; rw [hE]; exact hc
          · exact h3 i (by omega)
    · have hr : (siMode lt inner perr ss o (j + 1) (q.theta, q.resid)).run K s =
          some ((siPrecon inner perr (j + 1), 0, q.theta, q.resid), { s with h := Function.update s.h (3 + (j + 1)) (s.h 1) }) := by
        unfold siMode
        simp [hp]
      rw [EProg.run_bind, hr]
      simp only [Option.bind_some, ne_eq, hp, not_false_eq_true, if_true, EProg.run_pure, Ok_some]
      have hE : siErr K lt inner perr o m q0 j = siPrecon inner perr (j + 1) := by
        unfold siErr; rw [if_pos hp]
      refine ⟨hm, h4, fun l hl => h6 l (by rcases hl with h | h | h <;> simp [h]), fun _ hp1 => h5 ?_, fun h => ?_,
        fun i hi hne hlt => ?_⟩
      · rcases Nat.eq_zero_or_pos j with h | h
        · subst h; exact absurd hp1 hp
        · exact h
      · exact absurd (hE ▸ h j (by omega)) hp
      · have : i = j := by
          rcases lt_trichotomy i j with h | h | h
          · exact absurd (h3 i h) hne
          · exact h
          · exact absurd (hE ▸ hlt j h) hp
        rw [this, hE]

omit [Sub R] [Star R] in
/-- `esolver->ishift` is not looked at, so assuming it 0 in the following is no restriction -/
theorem lisEsi_ishift (lt : S → S → Bool) (inner : SiInner) (perr : ℕ → Err) (ss : ℕ) (jt : R) (jr : S) (o : EOpts R S) (a : R) :
    lisEsi lt inner perr ss jt jr { o with ishift := a } = lisEsi lt inner perr ss jt jr { o with ishift := 0 } := rfl

/-- **`lis_esi`**, completely: with `m` the (shifted) matrices and `P j` the end point of mode `j`, the run stays inside the
history array (which has more than `emaxiter` elements);
* if no mode meets an error, it returns `LIS_SUCCESS` (converged or not), reports for every mode the iterations made, residual
  and eigenvalue of its end point, leaves the iterate as its eigenvector, copies that of mode 0 to `x`, and shifts `A` back;
* if mode `j` is the first to meet an error, that error is returned, with the results of the modes before it; `A` stays shifted;
* the history holds the residuals of mode 0 and is unchanged elsewhere. -/
theorem lisEsi_spec (K : EKit R S M n) (lt : S → S → Bool) (inner : SiInner) (perr : ℕ → Err) (ss : ℕ) (hss : 1 ≤ ss)
    (jt : R) (jr : S) (o : EOpts R S) (s : ESt R S M n) (hsz : o.maxiter < s.hist.size) (h0 : o.ishift = 0) :
    Ok ((lisEsi lt inner perr ss jt jr o).run K s) fun r =>
      let m := shiftIf K o o.sigma s.m
      let q := siStart K jt jr
      ((∀ j, j < ss → siErr K lt inner perr o m q j = .success) →
        r.1 = ⟨.success, (List.range ss).map (siRes K lt inner o m q)⟩ ∧ r.2.m = shiftIf K o (-o.sigma) m ∧
        (∀ j, j < ss → r.2.h (ss + 5 + j) = (siMode' K lt inner o m q j).v) ∧ r.2.h eV = (siMode' K lt inner o m q 0).v) ∧
      (∀ j, j < ss → siErr K lt inner perr o m q j ≠ .success → (∀ l, l < j → siErr K lt inner perr o m q l = .success) →
        r.1 = ⟨siErr K lt inner perr o m q j, (List.range j).map (siRes K lt inner o m q)⟩ ∧ r.2.m = m) ∧
      r.2.hist.size = s.hist.size ∧
      (siPrecon inner perr 1 = .success → o.mem = true → ∀ l, 1 ≤ l → l ≤ siIter K lt inner o m q 0 →
        ((siStep K inner m [])^[l] q).err = .success → r.2.hist.get l = ((siStep K inner m [])^[l] q).resid) ∧
      (∀ l, (o.mem = false ∨ l = 0 ∨ siIter K lt inner o m q 0 < l) → r.2.hist.get l = s.hist.get l) := by
  have ho : ({ o with ishift := 0 } : EOpts R S) = o := by cases o; simp only at h0; rw [h0]
  unfold lisEsi
  simp only [ho, EProg.run_bind, run_eSetAll, run_eNormalize, run_eShiftIf, Option.bind_some, Ok_obind]
  refine (siModes_ok K lt inner perr ss o (shiftIf K o o.sigma s.m) (siStart K jt jr) s hsz ss 0 _ (siStart K jt jr) (by omega)
    (by rfl) (by rfl) (by rfl) ?_ (fun i hi => by omega) (fun i hi => by omega) (fun i hi => by omega) (by rfl)
    (fun h => by omega) (fun _ _ => by rfl)).mono ?_
  · simp [siStart]
  · rintro ⟨out, s'⟩ ⟨a1, a2, a3, a4, a5, a6⟩
    simp only at a1 a2 a3 a4 a5 a6 ⊢
    unfold siEnd
    rw [EProg.run_ite]
    by_cases hall : ∀ j, j < ss → siErr K lt inner perr o (shiftIf K o o.sigma s.m) (siStart K jt jr) j = .success
    · obtain ⟨b1, b2⟩ := a5 hall
      rw [if_neg (by rw [b1]; simp)]
      simp only [EProg.run_bind, run_eShiftIf, Option.bind_some, run_eCopy, EProg.run_pure, Ok_some]
      refine ⟨fun _ => ⟨b1, by rw [a1], fun j hj => ?_, ?_⟩, fun j hj hne => absurd (hall j hj) hne, a2, a4 hss, a3⟩
      · rw [Function.update_of_ne (by unfold eV; omega)]; exact b2 j hj
      · rw [Function.update_self]; exact b2 0 hss
    · obtain ⟨j, hj⟩ : ∃ j, j < ss ∧ siErr K lt inner perr o (shiftIf K o o.sigma s.m) (siStart K jt jr) j ≠ .success ∧
          ∀ l, l < j → siErr K lt inner perr o (shiftIf K o o.sigma s.m) (siStart K jt jr) l = .success := by
        classical
        push Not at hall
        refine ⟨Nat.find hall, (Nat.find_spec hall).1, (Nat.find_spec hall).2, fun l hl => ?_⟩
        by_contra hc
        exact Nat.find_min hall hl ⟨hl.trans (Nat.find_spec hall).1, hc⟩
      have b := a6 j hj.1 hj.2.1 hj.2.2
      rw [if_pos (by rw [b]; exact hj.2.1)]
      simp only [EProg.run_pure, Ok_some]
      refine ⟨fun h => absurd (h j hj.1) hj.2.1, fun i hi hne hlt => ⟨a6 i hi hne hlt, a1⟩, a2, a4 hss, a3⟩

omit [Sub R] [Star R] in
/-- how many iterations a mode makes: at most `emaxiter`; none before the last one ended the mode; if fewer, the last one did
(its residual was below the tolerance, or the linear solver failed) -/
theorem siIter_spec (K : EKit R S M n) (lt : S → S → Bool) (inner : SiInner) (o : EOpts R S) (m : M) (q : SiPt R S n) (j : ℕ) :
    let l := siEnds K lt inner o m q j
    let x := fun i => (siStep K inner m (l.map SiPt.v))^[i] (l.getLast?.getD q)
    let k := siIter K lt inner o m q j
    x k = siMode' K lt inner o m q j ∧ k ≤ o.maxiter ∧
    (∀ i, 1 ≤ i → i < k → (x i).err = .success ∧ lt (x i).resid o.tol = false) ∧
    (k < o.maxiter → 1 ≤ k ∧ ((x k).err ≠ .success ∨ lt (x k).resid o.tol = true)) := by
  intro l x k
  obtain ⟨a, b, c, d⟩ := iters_spec (fun i => siStop lt o (x i)) o.maxiter 0 (fun j h1 h2 => by omega)
  refine ⟨rfl, le_trans b (by omega), fun i i1 i2 => ?_, fun h => ?_⟩
  · have := c i i1 i2
    simpa [siStop] using this
  · obtain ⟨d1, d2⟩ := d (by rw [Nat.zero_add]; exact h)
    refine ⟨d1, ?_⟩
    have : siStop lt o (x k) = true := d2
    simpa [siStop] using this

end Lis
