import Verif.Lemmas.Gmres

/-!
# C25: lis_gmres, status
-/

namespace Lis
variable {R S : Type} {n : ℕ}
variable [Zero R] [One R] [Add R] [Neg R] [Mul R] [Div R] [Sub R] [Star R] [DecidableEq R] [RealOps S]

omit [Zero R] [One R] [Add R] [Neg R] [Mul R] [Div R] [Sub R] [Star R] [DecidableEq R] [RealOps S] in
theorem gm_pass {m M k : ℕ} (hm : 1 ≤ m) (hk : k < (M + m - 1) / m) : k * m < M := by
  have h := Nat.div_mul_le_self (M + m - 1) m
  have h2 : (k + 1) * m ≤ (M + m - 1) / m * m := Nat.mul_le_mul_right _ hk
  have h3 : (k + 1) * m = k * m + m := by ring
  omega

omit [Zero R] [One R] [Add R] [Neg R] [Mul R] [Div R] [Sub R] [Star R] [DecidableEq R] [RealOps S] in
theorem gm_last {m M : ℕ} (hm : 1 ≤ m) : M ≤ (M + m - 1) / m * m := by
  have h := Nat.div_add_mod (M + m - 1) m
  have h2 := Nat.mod_lt (M + m - 1) hm
  rw [Nat.mul_comm] at h
  omega

/-- one pass -/
theorem gmresBody_ok (F : GmFns R S) (K : Kit R S n) (m : ℕ) (hm : 1 ≤ m) (o : Opts R S) (bnrm : S) (s0 : MSt R S n)
    (hinit : ¬ initialResOf K o s0.h ≤ RealOps.fabs o.tol) (hsz0 : o.maxiter < s0.hist.size) (iter : ℕ)
    (hit : iter < o.maxiter) (p : Arr (Option R) × S) (s : MSt R S n) (hp : p.1.size = (m + 1 + 1) * (m + 1 + 2))
    (hI : LInv o (tolOf K o s0.h) (s0.h hB) s0.hist iter p.2 s) :
    Ok ((gmresBody F m o ⟨bnrm, tolOf K o s0.h⟩ iter p).run K s) fun r =>
      match r.1 with
      | .inl q => q.1.size = (m + 1 + 1) * (m + 1 + 2) ∧
          LInv o (tolOf K o s0.h) (s0.h hB) s0.hist (min (iter + m) o.maxiter) q.2 r.2
      | .inr out => out.ret = .success ∧ ContractLast K o o.maxiter s0 r.2 out := by
  unfold gmresBody
  simp only [vNrm2, vScale]
  have hs0 : (Arr.malloc (m + 1) fun _ => (0 : R)).size = m + 1 := rfl
  refine Ok_norm fun rn _ => Ok_vop fun w1 _ => Ok_aWr (by rw [hs0]; omega) (Ok_pbind ((gmInner_ok F K m gmV (fun _ => wk 2)
    gmV_ne (fun i => ⟨by simp only [gmV, hB, wk]; omega, by decide⟩) _ o s0 hinit hsz0
    (min m (o.maxiter - iter) - 1) iter 0 p.1 _ _ p.2 (by omega) (by omega) hp (by simpa using hs0) (fun j hj => by omega)
    (fun k j _ hj => by omega) ?_).mono ?_))
  · exact ⟨by simp only [VOp.dst]; rw [Function.update_of_ne (by decide)]; exact hI.b, hI.size, hI.out, hI.fails, hI.last⟩
  rintro ⟨⟨a, sa, nrm, ii⟩, s1⟩ ⟨e1, e2, e3, e4, e5, e6, e7, e8⟩
  simp only at e1 e2 e3 e4 e5 e6 e7 e8
  refine Ok_pbind ((gmSolve_ok K m ii (by omega) a s1 e1 e6 sa e2).mono ?_)
  rintro ⟨y, s2⟩ ⟨f1, f2⟩
  simp only at f1 f2
  subst f1
  refine Ok_pbind ((gmUpdate_ok K ii y (by omega) s2).mono ?_)
  rintro ⟨_, s3⟩ ⟨g1, g2⟩
  simp only at g1 g2
  have hb3 : s3.h hB = s2.h hB := g2 _ (by decide) (by decide) (by decide)
  refine Ok_pif (fun hle => Ok_ret ⟨rfl, ?_⟩) fun hle => ?_
  · have := e7 hle s3 hb3 g1
    rw [Nat.sub_zero] at this
    exact this
  · obtain ⟨h1, h2⟩ := e8 hle
    refine Ok_pbind ((gmUnrot_ok K m a s3 e1 (ii + 1) y f2 (by omega) e5).mono ?_)
    rintro ⟨y2, s4⟩ ⟨k1, k2⟩
    simp only at k1 k2
    subst k1
    refine Ok_pbind ((gmRestart_ok K (ii + 1) y2 (by omega) s4).mono ?_)
    rintro ⟨_, s5⟩ ⟨l1, l2⟩
    simp only at l1 l2
    refine Ok_ret ⟨e1, ?_⟩
    have hh : s5.hist = s2.hist := l1.trans g1
    simp only
    rw [show min (iter + m) o.maxiter = iter + (min m (o.maxiter - iter) - 1) + 1 by omega]
    exact ⟨((l2 _ (by decide)).trans hb3).trans h2.b, by rw [hh]; exact h2.size, by rw [hh]; exact h2.out,
      by rw [hh]; exact h2.fails, by rw [hh]; exact h2.last⟩

/-- **C25: status contract of `lis_gmres`**, for a restart value `m ≥ 1` -/
theorem lisGmres_status (F : GmFns R S) (m : ℕ) (hm : 1 ≤ m) (junk : S) (K : Kit R S n) (o : Opts R S) (s : MSt R S n)
    (hsz : o.maxiter < s.hist.size) :
    Ok ((lisGmres F m junk o).run K s) fun r => Contract K o junk (fun _ => False) s r.2 r.1 := by
  have hmm : max 1 m = m := by omega
  unfold lisGmres
  rw [hmm]
  simp only [mMatvec, vXpay, mPsolve]
  refine Ok_vop fun w1 _ => Ok_vop fun w2 _ => Ok_vop fun w3 _ => ?_
  simp only [VOp.dst]
  generalize hh : Function.update (Function.update (Function.update s.h (wk 2) w1) (wk 2) w2) (gmV 0) w3 = h'
  have hX' : h' hX = s.h hX := by
    rw [← hh, Function.update_of_ne (by decide), Function.update_of_ne (by decide), Function.update_of_ne (by decide)]
  have hB' : h' hB = s.h hB := by
    rw [← hh, Function.update_of_ne (by decide), Function.update_of_ne (by decide), Function.update_of_ne (by decide)]
  have er : r0Of K o h' = r0Of K o s.h := by unfold r0Of; rw [hX', hB']
  have ei : initialResOf K o h' = initialResOf K o s.h := by unfold initialResOf bnrmOf refNorm; rw [er, hB']
  have et : tolOf K o h' = tolOf K o s.h := by unfold tolOf; rw [hB']
  simp only [Prog.run_bind, run_initialResidual K o (gmV 0) (by decide) (by decide), Option.bind_some]
  by_cases hinit : initialResOf K o s.h ≤ RealOps.fabs o.tol
  · rw [if_pos (by rw [ei]; exact hinit)]
    refine Ok_ret ⟨(Function.update_of_ne (show hB ≠ gmV 0 by decide) (r0Of K o h') h').trans hB', rfl, fun _ _ => rfl,
      fun _ j h1 h2 => by simp only at h2; omega, .inl ⟨by rw [ei], hinit,
        (Function.update_of_ne (show hX ≠ gmV 0 by decide) (r0Of K o h') h').trans hX', rfl⟩⟩
  · rw [if_neg (by rw [ei]; exact hinit), et]
    simp only
    refine Ok_pbind (Ok_forIter (lo := 0) (fun k (p : Arr (Option R) × S) s' => p.1.size = (m + 1 + 1) * (m + 1 + 2) ∧
      (k = 0 → p.2 = junk) ∧ LInv o (tolOf K o s.h) (s.h hB) s.hist (min (k * m) o.maxiter) p.2 s') _ 0 _ _
      ⟨rfl, fun _ => rfl, ⟨(Function.update_of_ne (show hB ≠ gmV 0 by decide) (r0Of K o h') h').trans hB', rfl, fun _ _ => rfl, fun _ j h1 h2 => by omega, by omega⟩⟩ ?_ ?_)
    · rintro k p s' - hk ⟨hp, -, hI⟩
      have hlt := gm_pass hm (show k < (o.maxiter + m - 1) / m by omega)
      rw [Nat.min_eq_left hlt.le] at hI
      refine (gmresBody_ok F K m hm o _ s hinit hsz (k * m) hlt p s' hp hI).mono ?_
      rintro ⟨q | out, s2⟩ h
      · simp only at h ⊢
        exact ⟨h.1, by omega, by rw [Nat.add_mul, Nat.one_mul]; exact h.2⟩
      · simp only at h
        refine Ok_ret ⟨h.2.b, h.2.size, h.2.hist, h.2.fails, ?_⟩
        rcases h.2.cases with h' | h' | ⟨-, h', -⟩
        · exact .inl h'
        · exact .inr (.inl h')
        · rw [h.1] at h'; cases h'
    · rintro p s' ⟨-, hj, hI⟩
      rw [Nat.zero_add] at hI hj
      rw [Nat.min_eq_right (gm_last hm)] at hI
      refine Ok_ret ⟨hI.b, hI.size, fun j hj => hI.out j ?_, fun hme j h1 h2 => hI.fails hme j h1 (by simp only at h2; omega),
        .inr (.inr (.inl ⟨hinit, rfl, rfl, ?_⟩))⟩
      · rcases hj with h | h | h
        · exact .inl h
        · exact .inr (.inl h)
        · exact .inr (.inr (by simp only at h; omega))
      · split
        · rename_i h0
          refine hj ?_
          rw [h0]
          exact Nat.div_eq_of_lt (by omega)
        · exact hI.last (by omega)

/-- one pass of `lis_fgmres` -/
theorem fgmresBody_ok (F : GmFns R S) (K : Kit R S n) (m : ℕ) (hm : 1 ≤ m) (o : Opts R S) (s0 : MSt R S n)
    (hinit : ¬ initialResOf K o s0.h ≤ RealOps.fabs o.tol) (hsz0 : o.maxiter < s0.hist.size) (iter : ℕ)
    (hit : iter < o.maxiter) (p : Arr (Option R) × S × S × S) (s : MSt R S n) (hp : p.1.size = (m + 1 + 1) * (m + 1 + 2))
    (hI : LInv o (tolOf K o s0.h) (s0.h hB) s0.hist iter p.2.2.2 s) :
    Ok ((fgmresBody F m hm o (tolOf K o s0.h) iter p).run K s) fun r =>
      match r.1 with
      | .inl q => q.1.size = (m + 1 + 1) * (m + 1 + 2) ∧
          LInv o (tolOf K o s0.h) (s0.h hB) s0.hist (min (iter + m) o.maxiter) q.2.2.2 r.2
      | .inr out => out.ret = .success ∧ ContractLast K o o.maxiter s0 r.2 out := by
  unfold fgmresBody
  simp only [vNrm2, vScale, mMatvec, vXpay]
  have hs0 : (Arr.malloc (m + 1) fun _ => (0 : R)).size = m + 1 := rfl
  have hbv : hB ≠ fgV m 0 := by simp only [hB, fgV, wk]; omega
  refine Ok_vop fun w1 _ => Ok_aWr (by rw [hs0]; omega) (Ok_pbind ((gmInner_ok F K m (fgV m) fgZ
    (fgV_ne m hm) (fun i => ⟨by simp only [hB, fgV, wk]; omega, by simp only [hB, fgZ, wk]; omega⟩) _ o s0 hinit hsz0
    (min m (o.maxiter - iter) - 1) iter 0 p.1 _ _ p.2.2.2 (by omega) (by omega) hp (by simpa using hs0) (fun j hj => by omega)
    (fun k j _ hj => by omega) ?_).mono ?_))
  · exact ⟨by simp only [VOp.dst]; rw [Function.update_of_ne hbv]; exact hI.b, hI.size, hI.out, hI.fails, hI.last⟩
  rintro ⟨⟨a, sa, nrm, ii⟩, s1⟩ ⟨e1, e2, e3, e4, e5, e6, e7, e8⟩
  simp only at e1 e2 e3 e4 e5 e6 e7 e8
  refine Ok_pbind ((gmSolve_ok K m ii (by omega) a s1 e1 e6 sa e2).mono ?_)
  rintro ⟨y, s2⟩ ⟨f1, f2⟩
  simp only at f1 f2
  subst f1
  refine Ok_pbind ((fgUpdate_ok K ii y (by omega) s2).mono ?_)
  rintro ⟨_, s3⟩ ⟨g1, g2⟩
  simp only at g1 g2
  have hb3 : s3.h hB = s2.h hB := g2 _ (by decide)
  refine Ok_pif (fun hle => Ok_ret ⟨rfl, ?_⟩) fun hle => ?_
  · have := e7 hle s3 hb3 g1
    rw [Nat.sub_zero] at this
    exact this
  · obtain ⟨h1, h2⟩ := e8 hle
    refine Ok_vop fun w4 _ => Ok_vop fun w5 _ => Ok_norm fun rn _ => Ok_ret ⟨e1, ?_⟩
    simp only [VOp.dst]
    rw [show min (iter + m) o.maxiter = iter + (min m (o.maxiter - iter) - 1) + 1 by omega]
    exact ⟨by simp only; rw [Function.update_of_ne hbv, Function.update_of_ne hbv]; exact hb3.trans h2.b,
      by rw [g1]; exact h2.size, by rw [g1]; exact h2.out, by rw [g1]; exact h2.fails, by rw [g1]; exact h2.last⟩

/-- **C25: status contract of `lis_fgmres`**, for a restart value `m ≥ 1` -/
theorem lisFgmres_status (F : GmFns R S) (m : ℕ) (hm : 1 ≤ m) (junk : S) (K : Kit R S n) (o : Opts R S) (s : MSt R S n)
    (hsz : o.maxiter < s.hist.size) :
    Ok ((lisFgmres F m hm junk o).run K s) fun r => Contract K o junk (fun _ => False) s r.2 r.1 := by
  unfold lisFgmres
  have hbv : hB ≠ fgV m 0 := by simp only [hB, fgV, wk]; omega
  have hxv : hX ≠ fgV m 0 := by simp only [hX, fgV, wk]; omega
  simp only [Prog.run_bind, run_initialResidual K o (fgV m 0) _ hbv, Option.bind_some]
  by_cases hinit : initialResOf K o s.h ≤ RealOps.fabs o.tol
  · rw [if_pos hinit]
    exact Ok_ret ⟨Function.update_of_ne hbv (r0Of K o s.h) s.h, rfl, fun _ _ => rfl,
      fun _ j h1 h2 => by simp only at h2; omega, .inl ⟨rfl, hinit, Function.update_of_ne hxv (r0Of K o s.h) s.h, rfl⟩⟩
  · rw [if_neg hinit]
    simp only
    refine Ok_pbind (Ok_forIter (lo := 0) (fun k (p : Arr (Option R) × S × S × S) s' => p.1.size = (m + 1 + 1) * (m + 1 + 2) ∧
      (k = 0 → p.2.2.2 = junk) ∧ LInv o (tolOf K o s.h) (s.h hB) s.hist (min (k * m) o.maxiter) p.2.2.2 s') _ 0 _ _
      ⟨rfl, fun _ => rfl, ⟨Function.update_of_ne hbv (r0Of K o s.h) s.h, rfl, fun _ _ => rfl, fun _ j h1 h2 => by omega, by omega⟩⟩ ?_ ?_)
    · rintro k p s' - hk ⟨hp, -, hI⟩
      have hlt := gm_pass hm (show k < (o.maxiter + m - 1) / m by omega)
      rw [Nat.min_eq_left hlt.le] at hI
      refine (fgmresBody_ok F K m hm o s hinit hsz (k * m) hlt p s' hp hI).mono ?_
      rintro ⟨q | out, s2⟩ h
      · simp only at h ⊢
        exact ⟨h.1, by omega, by rw [Nat.add_mul, Nat.one_mul]; exact h.2⟩
      · simp only at h
        refine Ok_ret ⟨h.2.b, h.2.size, h.2.hist, h.2.fails, ?_⟩
        rcases h.2.cases with h' | h' | ⟨-, h', -⟩
        · exact .inl h'
        · exact .inr (.inl h')
        · rw [h.1] at h'; cases h'
    · rintro p s' ⟨-, hj, hI⟩
      rw [Nat.zero_add] at hI hj
      rw [Nat.min_eq_right (gm_last hm)] at hI
      refine Ok_ret ⟨hI.b, hI.size, fun j hj => hI.out j ?_, fun hme j h1 h2 => hI.fails hme j h1 (by simp only at h2; omega),
        .inr (.inr (.inl ⟨hinit, rfl, rfl, ?_⟩))⟩
      · rcases hj with h | h | h
        · exact .inl h
        · exact .inr (.inl h)
        · exact .inr (.inr (by simp only at h; omega))
      · split
        · rename_i h0
          refine hj ?_
          rw [h0]
          exact Nat.div_eq_of_lt (by omega)
        · exact hI.last (by omega)

end Lis
