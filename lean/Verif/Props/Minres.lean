import Verif.Model.Minres
import Verif.Spec.SolverMinres
import Verif.Lemmas.SolverLast
import Verif.Lemmas.Gmres

/-!
# C25: lis_minres, status
-/

namespace Lis
variable {R S : Type} {n : ℕ}
variable [Zero R] [One R] [Add R] [Neg R] [Mul R] [Div R] [Sub R] [Star R] [DecidableEq R] [RealOps S]

/-- one iteration -/
theorem minresBody_ok (F : GmFns R S) (K : Kit R S n) (o : Opts R S) (r0 : S) (iter : ℕ) (p : MinSt R S × S) (s : MSt R S n)
    (hi : iter < s.hist.size) :
    Ok ((minresBody F o r0 iter p).run K s) fun r => r.2.h hB = s.h hB ∧
      match r.1 with
      | .inl q => ¬ q.2 ≤ o.tol ∧ Recorded o iter q.2 s.hist r.2.hist
      | .inr out => out.ret = .success ∧ out.iter = iter ∧ out.resid ≤ o.tol ∧ Recorded o iter out.resid s.hist r.2.hist := by
  unfold minresBody
  simp only [vScale, mMatvec, mPsolve, vDot, vAxpy, vNrm2, vAxpyz, vCopy]
  refine Ok_vop fun w1 _ => Ok_vop fun w2 _ => Ok_vop fun w3 _ => Ok_red fun al _ => Ok_vop fun w4 _ => Ok_vop fun w5 _ =>
    Ok_norm fun b3 _ => Ok_vop fun w6 _ => Ok_vop fun w7 _ => Ok_vop fun w8 _ => Ok_vop fun w9 _ => ?_
  simp only [VOp.dst]
  refine Ok_pif (fun hm => Ok_hist (by exact hi) ?_) fun hm => ?_
  · refine Ok_pif (fun hle => Ok_ret ⟨?_, rfl, rfl, hle, ?_⟩) fun hle => Ok_vop fun w10 _ => Ok_vop fun w11 _ => Ok_vop fun w12 _ =>
      Ok_vop fun w13 _ => Ok_ret ⟨?_, hle, ?_⟩
    · simp only [Function.update_of_ne (show hB ≠ hX by decide), Function.update_of_ne (show hB ≠ wk 6 by decide),
        Function.update_of_ne (show hB ≠ wk 3 by decide), Function.update_of_ne (show hB ≠ wk 2 by decide),
        Function.update_of_ne (show hB ≠ wk 1 by decide)]
    · unfold Recorded; rw [if_pos hm]
    · simp only [VOp.dst, Function.update_of_ne (show hB ≠ hX by decide), Function.update_of_ne (show hB ≠ wk 6 by decide),
        Function.update_of_ne (show hB ≠ wk 5 by decide), Function.update_of_ne (show hB ≠ wk 4 by decide),
        Function.update_of_ne (show hB ≠ wk 0 by decide),
        Function.update_of_ne (show hB ≠ wk 3 by decide), Function.update_of_ne (show hB ≠ wk 2 by decide),
        Function.update_of_ne (show hB ≠ wk 1 by decide)]
    · unfold Recorded; rw [if_pos hm]
  · refine Ok_pif (fun hle => Ok_ret ⟨?_, rfl, rfl, hle, ?_⟩) fun hle => Ok_vop fun w10 _ => Ok_vop fun w11 _ => Ok_vop fun w12 _ =>
      Ok_vop fun w13 _ => Ok_ret ⟨?_, hle, ?_⟩
    · simp only [Function.update_of_ne (show hB ≠ hX by decide), Function.update_of_ne (show hB ≠ wk 6 by decide),
        Function.update_of_ne (show hB ≠ wk 3 by decide), Function.update_of_ne (show hB ≠ wk 2 by decide),
        Function.update_of_ne (show hB ≠ wk 1 by decide)]
    · unfold Recorded; rw [if_neg hm]
    · simp only [VOp.dst, Function.update_of_ne (show hB ≠ hX by decide), Function.update_of_ne (show hB ≠ wk 6 by decide),
        Function.update_of_ne (show hB ≠ wk 5 by decide), Function.update_of_ne (show hB ≠ wk 4 by decide),
        Function.update_of_ne (show hB ≠ wk 0 by decide),
        Function.update_of_ne (show hB ≠ wk 3 by decide), Function.update_of_ne (show hB ≠ wk 2 by decide),
        Function.update_of_ne (show hB ≠ wk 1 by decide)]
    · unfold Recorded; rw [if_neg hm]

/-- the norm of `M⁻¹(b - A x)` -/
def precRes (K : Kit R S n) (b x : Fin n → R) : S := K.nrm2 (K.ps fun i => b i + -1 * K.mv x i)

/-- **C25: status contract of `lis_minres`** -/
theorem lisMinres_status (F : GmFns R S) (K : Kit R S n) (o : Opts R S) (s : MSt R S n) (hsz : o.maxiter < s.hist.size) :
    Ok ((lisMinres F o).run K s) fun r =>
      ContractMinres o (precRes K (s.h hB) (s.h hX) / precRes K (s.h hB) (s.h hX)) s r.2 r.1 := by
  unfold lisMinres mainLoop
  simp only [vSetAll, mMatvec, mPsolve, vXpay, vNrm2, vCopy]
  refine Ok_vop fun w1 h1 => Ok_vop fun w2 h2 => Ok_vop fun w3 h3 => Ok_vop fun w4 h4 => Ok_norm fun r0 hr0 =>
    Ok_vop fun w5 _ => Ok_vop fun w6 _ => Ok_vop fun w7 _ => ?_
  simp only [VOp.dst, VOp.val, VNorm.run, Function.update_self, Function.update_of_ne (show hB ≠ wk 1 by decide)] at h1 h2 h3 h4 hr0 ⊢
  have er : r0 = precRes K (s.h hB) (s.h hX) := by
    rw [hr0, h4, h3, h2, h1]; rfl
  generalize hh : Function.update (Function.update (Function.update (Function.update (Function.update (Function.update
    (Function.update s.h (wk 1) w1) (wk 1) w2) (wk 2) w3) (wk 1) w4) (wk 0) w5) (wk 4) w6) (wk 5) w7 = h'
  have hB' : h' hB = s.h hB := by
    rw [← hh]
    simp only [Function.update_of_ne (show hB ≠ wk 5 by decide), Function.update_of_ne (show hB ≠ wk 4 by decide),
        Function.update_of_ne (show hB ≠ wk 0 by decide), Function.update_of_ne (show hB ≠ wk 2 by decide),
        Function.update_of_ne (show hB ≠ wk 1 by decide)]
  refine Ok_pbind (Ok_forIter (lo := 0) (fun k (p : MinSt R S × S) s' => (k = 1 → p.2 = r0 / r0) ∧ LInv o o.tol (s.h hB) s.hist (k - 1) p.2 s')
    o.maxiter 1 _ _ ⟨fun _ => rfl, hB', rfl, fun _ _ => rfl, fun _ j h1 h2 => by omega, by omega⟩ ?_ ?_)
  · rintro k p s' h1 h2 ⟨-, hI⟩
    refine (minresBody_ok F K o r0 k p s' (by rw [hI.size]; omega)).mono ?_
    rintro ⟨q | out, s2⟩ ⟨e1, e2⟩
    · simp only at e1 e2 ⊢
      refine ⟨by omega, ?_⟩
      have := hI.step (v' := q.2) e1 e2.1 (by rw [show k - 1 + 1 = k by omega]; exact e2.2)
      rw [show k + 1 - 1 = k - 1 + 1 by omega]
      exact this
    · simp only at e1 e2
      obtain ⟨e2, e3, e4, e5⟩ := e2
      refine Ok_ret ⟨e1.trans hI.b, ?_, fun j hj => ?_, fun hm j j1 j2 => ?_, .inl ⟨e2, by simp only; omega, by simp only; omega, e4, ?_⟩⟩
      · exact e5.size.trans hI.size
      · simp only at hj ⊢
        unfold Recorded at e5
        rw [e5]
        split
        · rename_i hm
          rw [Arr.set_get_ne _ _ (by rcases hj with hj | hj | hj <;> [(simp [hm] at hj); omega; omega])]
          exact hI.out j (by rcases hj with hj | hj | hj <;> [exact .inl hj; exact .inr (.inl hj); exact .inr (.inr (by omega))])
        · exact hI.out j (.inl (by simpa using ‹¬ o.mem = true›))
      · simp only at j2 ⊢
        unfold Recorded at e5
        rw [e5, if_pos hm, Arr.set_get_ne _ _ (by omega)]
        exact hI.fails hm j j1 (by omega)
      · intro hm
        unfold Recorded at e5
        simp only
        rw [e5, if_pos hm, e3, Arr.set_get_self]
  · rintro p s' ⟨hj, hI⟩
    rw [show 1 + o.maxiter - 1 = o.maxiter by omega] at hI
    refine Ok_ret ⟨hI.b, hI.size, fun j hj => hI.out j ?_, fun hme j h1 h2 => hI.fails hme j h1 (by simp only at h2; omega),
      .inr ⟨rfl, rfl, ?_⟩⟩
    · rcases hj with h | h | h
      · exact .inl h
      · exact .inr (.inl h)
      · exact .inr (.inr (by simp only at h; omega))
    · split
      · rename_i h0
        simp only
        rw [hj (by omega), er]
      · exact hI.last (by omega)

end Lis
