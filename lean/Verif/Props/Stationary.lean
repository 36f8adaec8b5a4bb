import Verif.Spec.Stationary
import Verif.Props.SolverDoc

/-!
# C26: the stationary solvers
-/

namespace Lis
variable {R S : Type} {n : ℕ}

section
variable [One R] [Neg R] [Add R] [Mul R] [Star R] [RealOps S]

/-- state before iteration `i` -/
structure StatInv (K : Kit R S n) (m : (Fin n → R) → Fin n → R) (d : MHeap R n → Prop) (o : Opts R S) (junk : S)
    (s : MSt R S n) (i : ℕ) (v : S) (s' : MSt R S n) : Prop where
  pos : 1 ≤ i
  d : d s'.h
  b : s'.h hB = s.h hB
  x : s'.h hX = (sweep K m (s.h hB))^[i - 1] (s.h hX)
  size : s'.hist.size = s.hist.size
  hist : ∀ j, (o.mem = false ∨ j = 0 ∨ i ≤ j) → s'.hist.get j = s.hist.get j
  recd : o.mem → ∀ j, 1 ≤ j → j < i → s'.hist.get j = sweepRes K (s.h hB) ((sweep K m (s.h hB))^[j - 1] (s.h hX))
  fails : ∀ j, j + 1 < i → ¬ sweepRes K (s.h hB) ((sweep K m (s.h hB))^[j] (s.h hX)) ≤ o.tol
  v : v = if i = 1 then junk else sweepRes K (s.h hB) ((sweep K m (s.h hB))^[i - 2] (s.h hX))

theorem Ok_stat {K : Kit R S n} {m : (Fin n → R) → Fin n → R} {dp : MHeap R n → Prop}
    (hd : ∀ h h' : MHeap R n, dp h → h' (wk 3) = h (wk 3) → dp h') {pre upd : Prog R S Unit} {c : ℕ}
    (hc : hX ≠ c) {o : Opts R S} {junk : S} {s : MSt R S n} (hsz : o.maxiter < s.hist.size)
    (hpre : Ok (pre.run K s) fun r => dp r.2.h ∧ r.2.h hB = s.h hB ∧ r.2.h hX = s.h hX ∧ r.2.hist = s.hist)
    (hupd : ∀ s2 : MSt R S n, dp s2.h → Ok (upd.run K s2) fun r => r.2.h c = m (s2.h (wk 0)) ∧ r.2.h hB = s2.h hB ∧
      r.2.h hX = s2.h hX ∧ r.2.h (wk 3) = s2.h (wk 3) ∧ r.2.hist = s2.hist) :
    Ok ((statProg pre upd c junk o).run K s) fun r => StationaryRun K m o junk s r.2 r.1 := by
  unfold statProg
  simp only [Prog.run_bind, run_vNrm2, Option.bind_some, Ok_obind]
  refine hpre.mono ?_
  rintro ⟨_, s1⟩ ⟨p0, p1, p2, p3⟩
  refine Ok_forIter (lo := 1) (fun i st s' => StatInv K m dp o junk s i st.2 s') o.maxiter 1 ((), junk) s1 ?_ ?_ ?_
  · exact ⟨le_rfl, p0, p1, p2, by rw [p3], fun j _ => by rw [p3], fun _ j _ _ => by omega, fun j h => by omega, rfl⟩
  · rintro i st s2 - hi hI
    have his : i < s2.hist.size := by rw [hI.size]; omega
    have hx3 : hX ≠ wk 3 := by decide
    simp only [statBody, Prog.run_bind, run_mPsolve, run_mMatvec, run_vAxpyz, run_vNrm2, Option.bind_some, Ok_obind]
    refine (hupd _ (hd _ _ hI.d (by vlook))).mono ?_
    rintro ⟨_, s3⟩ ⟨u1, u2, u3, u4, u5⟩
    simp (disch := decide) only [Function.update_self, Function.update_of_ne, ne_eq] at u1 u2 u3 u4 u5
    simp (disch := decide) only [Function.update_self, Function.update_of_ne, ne_eq]
    have hres : K.nrm2 (fun i => -1 * K.mv (K.ps (s2.h hX)) i + s2.h hB i) * (1 / K.nrm2 (s.h hB)) =
        sweepRes K (s.h hB) ((sweep K m (s.h hB))^[i - 1] (s.h hX)) := by
      unfold sweepRes; rw [hI.b, hI.x]
    rw [hres]
    set v := sweepRes K (s.h hB) ((sweep K m (s.h hB))^[i - 1] (s.h hX)) with hv
    have hx : (fun j => s3.h hX j + 1 * s3.h c j) = (sweep K m (s.h hB))^[i] (s.h hX) := by
      obtain ⟨k, rfl⟩ : ∃ k, i = k + 1 := ⟨i - 1, by have := hI.pos; omega⟩
      rw [Function.iterate_succ_apply', u1, u3, hI.x, hI.b]
      rfl
    have hd3 : dp s3.h := hd _ _ hI.d u4
    -- the recorded history
    have key : ∀ a : Arr S, Recorded o i v s2.hist a →
        (a.size = s.hist.size ∧ (∀ j, (o.mem = false ∨ j = 0 ∨ i + 1 ≤ j) → a.get j = s.hist.get j) ∧
         (o.mem → ∀ j, 1 ≤ j → j < i + 1 → a.get j = sweepRes K (s.h hB) ((sweep K m (s.h hB))^[j - 1] (s.h hX)))) := by
      intro a ha
      unfold Recorded at ha
      refine ⟨?_, ?_, ?_⟩
      · rw [ha]; split <;> simp [hI.size]
      · intro j hj
        rw [ha]
        split
        · rename_i hm
          rw [Arr.set_get_ne _ _ (by rcases hj with hj | hj | hj <;> [(simp [hm] at hj); (have := hI.pos; omega); omega])]
          exact hI.hist j (by rcases hj with hj | hj | hj <;> [exact .inl hj; exact .inr (.inl hj); exact .inr (.inr (by omega))])
        · exact hI.hist j (.inl (by simpa using ‹¬ o.mem = true›))
      · intro hm j h1 h2
        rw [ha, if_pos hm, Arr.set_get]
        split
        · rename_i hj; rw [hj, hv]
        · exact hI.recd hm j h1 (by omega)
    have main : ∀ a : Arr S, Recorded o i v s2.hist a →
        Ok ((if v ≤ o.tol then do
              mPsolve hX (wk 2)
              vCopy (wk 2) hX
              pure (.inr ⟨.success, i, v⟩)
            else pure (.inl ((), v)) : Prog R S ((Unit × S) ⊕ Out S)).run K
            ⟨Function.update s3.h hX ((sweep K m (s.h hB))^[i] (s.h hX)), a⟩) fun r => match r.1 with
        | .inl st' => StatInv K m dp o junk s (i + 1) st'.2 r.2
        | .inr out => Ok ((pure out : Prog R S (Out S)).run K r.2) fun r => StationaryRun K m o junk s r.2 r.1 := by
      intro a ha
      obtain ⟨k1, k2, k3⟩ := key a ha
      have hpos := hI.pos
      rw [Prog.run_ite]
      split
      · rename_i hle
        simp only [Prog.run_bind, run_mPsolve, run_vCopy, Option.bind_some, Prog.run_pure, Ok_some]
        refine ⟨?_, k1, ?_, ?_, ?_, .inl ⟨rfl, hI.pos, by simp only; omega, hv, hle, ?_⟩⟩
        · vlook; rw [u2, hI.b]
        · intro j hj
          exact k2 j (by rcases hj with hj | hj | hj <;> [exact .inl hj; exact .inr (.inl hj); exact .inr (.inr (by simp only at hj; omega))])
        · intro hm j h1 h2 _
          exact k3 hm j h1 (by simp only at h2; omega)
        · intro j hj
          exact hI.fails j hj
        · vlook
      · rename_i hle
        simp only [Prog.run_pure, Ok_some]
        refine ⟨by omega, hd _ _ hd3 (by vlook), by vlook; rw [u2, hI.b], by vlook; rfl, k1, k2, k3, ?_, ?_⟩
        · intro j hj
          by_cases hj' : j + 1 = i
          · have : j = i - 1 := by omega
            rw [this]; exact hle
          · exact hI.fails j (by omega)
        · rw [if_neg (by omega)]; exact hv
    rw [run_vAxpy, Ok_some, Prog.run_ite, hx, u5]
    dsimp only
    split
    · rename_i hm
      have := run_setHist (K := K) (v := v) (s := ⟨Function.update s3.h hX ((sweep K m (s.h hB))^[i] (s.h hX)), s2.hist⟩)
        (i := i) his
      rw [Prog.run_bind, this, Option.bind_some]
      refine (main _ (recorded_pos hm)).mono ?_
      rintro ⟨_ | _, _⟩ h <;> exact h
    · rename_i hm
      refine (main _ (recorded_neg hm)).mono ?_
      rintro ⟨_ | _, _⟩ h <;> exact h
  · intro st s2 hI
    simp only [Prog.run_bind, run_mPsolve, run_vCopy, Option.bind_some, Prog.run_pure, Ok_some]
    have hmx : o.maxiter = 1 + o.maxiter - 1 := by omega
    refine ⟨?_, hI.size, ?_, ?_, ?_, .inr ⟨rfl, rfl, ?_, ?_⟩⟩
    · vlook; exact hI.b
    · intro j hj
      exact hI.hist j (by rcases hj with hj | hj | hj <;> [exact .inl hj; exact .inr (.inl hj); exact .inr (.inr (by simp only at hj; omega))])
    · intro hm j h1 h2 h3
      exact hI.recd hm j h1 (by omega)
    · intro j hj
      exact hI.fails j (by simp only at hj; omega)
    · rw [hI.v]
      have e : 1 + o.maxiter - 2 = o.maxiter - 1 := by omega
      rw [e]
      by_cases h0 : o.maxiter = 0
      · simp [h0]
      · rw [if_neg (by omega), if_neg h0]
    · vlook; rw [hI.x, ← hmx]

/-- **C26** (Jacobi): sweeps `x + D⁻¹ (b - A P⁻¹ x)`, for any arithmetic -/
theorem lisJacobi_spec (K : Kit R S n) (o : Opts R S) (junk : S) (s : MSt R S n) (hsz : o.maxiter < s.hist.size) :
    Ok ((lisJacobi junk o).run K s) fun r => StationaryRun K (fun r i => r i * K.rdg i) o junk s r.2 r.1 := by
  refine Ok_stat (dp := fun h => h (wk 3) = K.rdg) (fun h h' h1 h2 => h2.trans h1) (by decide) hsz ?_ ?_
  · simp only [run_mRdiag, Ok_some]
    vlook
    exact ⟨trivial, trivial, trivial, trivial⟩
  · intro s2 h2
    simp only [run_vPmul, Ok_some]
    vlook
    rw [h2]
    exact ⟨rfl, trivial, trivial, trivial, trivial⟩

/-- **C26** (Gauss-Seidel, SOR): sweeps `x + M⁻¹ (b - A P⁻¹ x)` where `M⁻¹` is the forward substitution -/
theorem lisGs_spec (K : Kit R S n) (o : Opts R S) (junk : S) (s : MSt R S n) (hsz : o.maxiter < s.hist.size) :
    Ok ((lisGs junk o).run K s) fun r => StationaryRun K K.ls o junk s r.2 r.1 := by
  refine Ok_stat (dp := fun _ => True) (fun h h' h1 h2 => trivial) (by decide) hsz ?_ ?_
  · simp only [Prog.run_pure, Ok_some]
    exact ⟨trivial, trivial, trivial, trivial⟩
  · intro s2 h2
    simp only [run_mLsolve, Ok_some]
    vlook
    exact ⟨trivial, trivial, trivial, trivial, trivial⟩

end
end Lis
