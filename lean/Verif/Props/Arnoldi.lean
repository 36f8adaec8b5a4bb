import Verif.Model.Arnoldi
import Verif.Lemmas.Lanczos

/-!
# C60: the Arnoldi eigensolver `lis_eai` writes and reads outside its array
-/

namespace Lis
variable {R S : Type} {n : ℕ}
variable [Zero R] [One R] [Add R] [Neg R] [Mul R] [Div R] [Star R] [RealOps S] [EigOps R S]

theorem aiOrth_ok (K : Kit R S n) (ss j : ℕ) (h : Arr R) (s : MSt R S n) (hh : h.size = ss * ss) (hj : j < ss) :
    Ok ((aiOrth ss j h : Prog R S _).run K s) fun r => r.1.size = ss * ss ∧
      ∀ p q, p < ss → q ≠ j → r.1.get (p + q * ss) = h.get (p + q * ss) := by
  unfold aiOrth
  simp only [vDot, vAxpy]
  refine Ok_pfor (fun i h' _ => i ≤ j + 1 ∧ h'.size = ss * ss ∧
    ∀ p q, p < ss → q ≠ j → h'.get (p + q * ss) = h.get (p + q * ss)) (j + 1) 0 h s ⟨by omega, hh, fun _ _ _ _ => rfl⟩ ?_
    (fun _ _ h => h.2)
  rintro i h' s' - hi ⟨-, h1, h2⟩
  have hx : i + j * ss < ss * ss := by have := li_idx (i := j) (k := i) hj (by omega); omega
  refine Ok_red fun d _ => Ok_aWr (by omega) (Ok_aRd (by simpa [h1] using hx) (Ok_vop fun w _ => Ok_ret ⟨by omega, by simpa using h1,
    fun p q hp hq => ?_⟩))
  rw [Arr.set_get_ne _ _ ?_, h2 p q hp hq]
  intro e
  exact hq (li_inj (i := q) (k := p) (i' := j) (k' := i) hp (by omega) (by omega)).1

/-- the last pass writes `h[ss*ss]` -/
theorem aiStep_last (K : Kit R S n) (lt : S → S → Bool) (tol : S) (ss j : ℕ) (h : Arr R) (s : MSt R S n)
    (hh : h.size = ss * ss) (hj : j + 1 = ss) : (aiStep lt tol ss j h).run K s = none := by
  subst hj
  unfold aiStep
  rw [Prog.run_bind]
  simp only [mMatvec, Prog.run, Option.bind_some]
  rw [Prog.run_bind]
  obtain ⟨r, hr, h1, -⟩ := aiOrth_ok K (j + 1) j h ⟨VOp.run K (.matvec (aiV j) aiW (by simp only [aiV, aiW]; omega)) s.h, s.hist⟩
    hh (by omega)
  rw [hr]
  simp only [Option.bind_some]
  have : (aWr r.1 (j + 1 + j * (j + 1)) (EigOps.ofS (VNorm.run K (.nrm2 aiW) r.2.h)) : Prog R S (Arr R)) = .undef := by
    unfold aWr Arr.wr
    rw [if_neg]
    · rfl
    · rw [h1, Nat.succ_mul]; omega
  rw [Prog.run_bind]
  simp only [vNrm2, Prog.run, Option.bind_some]
  rw [Prog.run_bind, this]
  rfl

theorem aiStep_ok (K : Kit R S n) (lt : S → S → Bool) (tol : S) (ss j : ℕ) (h : Arr R) (s : MSt R S n)
    (hh : h.size = ss * ss) (hj : j + 1 < ss) : Ok ((aiStep lt tol ss j h).run K s) fun r => r.1.2.size = ss * ss ∧
      (r.1.1 = true → lt (EigOps.fabs (r.1.2.get (j + 1 + j * ss))) tol = true) := by
  have hx : j + 1 + j * ss < ss * ss := by have := li_idx (i := j) (k := j + 1) (by omega) hj; omega
  unfold aiStep
  simp only [mMatvec, vNrm2, vScale, vCopy]
  refine Ok_vop fun w _ => Ok_pbind ((aiOrth_ok K ss j h _ hh (by omega)).mono ?_)
  rintro ⟨h', s'⟩ ⟨h1, -⟩
  simp only at h1 ⊢
  refine Ok_norm fun b _ => Ok_aWr (by omega) (Ok_aRd (by simpa [h1] using hx) ?_)
  refine Ok_pif (fun hl => Ok_ret ⟨by simpa using h1, fun _ => hl⟩) fun hl =>
    Ok_vop fun _ _ => Ok_vop fun _ _ => Ok_ret ⟨by simpa using h1, fun h => by cases h⟩

theorem aiWhile_some (K : Kit R S n) (lt : S → S → Bool) (tol : S) (ss : ℕ) : ∀ (k j : ℕ) (h : Arr R) (s : MSt R S n)
    (r : (ℕ × Arr R) × MSt R S n), h.size = ss * ss → j + k = ss → 0 < k → (liWhile (aiStep lt tol ss) k j h).run K s = some r →
      0 < r.1.1 ∧ r.1.1 < ss ∧ r.1.2.size = ss * ss ∧
        lt (EigOps.fabs (r.1.2.get (r.1.1 + (r.1.1 - 1) * ss))) tol = true := by
  intro k
  induction k with
  | zero => intro j h s r _ _ hk; omega
  | succ k ih =>
    intro j h s r hh hjk _ hr
    rw [liWhile, Prog.run_bind] at hr
    by_cases hk : k = 0
    · rw [aiStep_last K lt tol ss j h s hh (by omega)] at hr
      cases hr
    · obtain ⟨⟨⟨b, h'⟩, s'⟩, e, h1, h2⟩ := aiStep_ok K lt tol ss j h s hh (by omega)
      rw [e] at hr
      simp only [Option.bind_some] at hr h1 h2
      cases b with
      | true =>
        rw [if_pos rfl] at hr
        simp only [Prog.run_pure, Option.some.injEq] at hr
        subst hr
        exact ⟨Nat.succ_pos _, by simp only; omega, h1, by simpa using h2 rfl⟩
      | false =>
        exact ih (j + 1) h' s' r h1 (by omega) (by omega) hr

/-- **C60 (finding).** `lis_eai`, any arithmetic, any matrix, any `-ss` at least 1: the only runs of the Arnoldi loop
without a write outside the array `h` are those with a breakdown `|h(m,m-1)| < tol` before the last pass. -/
theorem aiHess_breaks (K : Kit R S n) (lt : S → S → Bool) (junk : ℕ → R) (tol : S) (ss : ℕ) (hss : 1 ≤ ss) (s : MSt R S n)
    (r : (ℕ × Arr R) × MSt R S n) (hr : (aiHess lt junk tol ss).run K s = some r) :
    0 < r.1.1 ∧ r.1.1 < ss ∧ r.1.2.size = ss * ss ∧ lt (EigOps.fabs (r.1.2.get (r.1.1 + (r.1.1 - 1) * ss))) tol = true := by
  unfold aiHess at hr
  rw [Prog.run_bind] at hr
  simp only [vSetAll, Prog.run, Option.bind_some] at hr
  rw [Prog.run_bind] at hr
  simp only [vNrm2, Prog.run, Option.bind_some] at hr
  rw [Prog.run_bind] at hr
  simp only [vScale, Prog.run, Option.bind_some] at hr
  obtain ⟨t, ht, h1, -⟩ := liZero_spec ss (Arr.malloc (ss * ss) junk) (le_of_eq rfl)
  rw [ht, Prog.run_bind] at hr
  simp only [Prog.ofOption, Prog.run, Option.bind_some] at hr
  exact aiWhile_some K lt tol ss ss 0 t _ r h1 (by omega) hss hr

/-- **C60 (finding).** With `-ss 1`, the default, `lis_eai` writes outside `h` for every matrix. -/
theorem aiHess_default_undefined (K : Kit R S n) (lt : S → S → Bool) (junk : ℕ → R) (tol : S) (s : MSt R S n) :
    (aiHess lt junk tol 1).run K s = none := by
  rcases h : (aiHess lt junk tol 1).run K s with _ | r
  · rfl
  · have := aiHess_breaks K lt junk tol 1 le_rfl s r h
    omega

omit [Zero R] [One R] [Add R] [Neg R] [Mul R] [Div R] [Star R] in
theorem aiValues_some (small : R → Bool) (neg : R → R → R → R → Bool) (avg : R → R → R) (ss : ℕ) (h : Arr R)
    (hh : h.size = ss * ss) : ∀ (k i : ℕ) (ev ev' : Arr R), i < ss → ss ≤ i + k → aiValues small neg avg ss h k i ev = some ev' →
      2 ≤ ss ∧ small (h.get ((ss - 1) + (ss - 2) * ss)) = false ∧
      neg (h.get ((ss - 2) + (ss - 2) * ss)) (h.get ((ss - 2) + (ss - 1) * ss)) (h.get ((ss - 1) + (ss - 2) * ss))
        (h.get ((ss - 1) + (ss - 1) * ss)) = true := by
  intro k
  induction k using Nat.strong_induction_on with
  | _ k ih =>
    intro i ev ev' hi hk he
    obtain ⟨k, rfl⟩ : ∃ k', k = k' + 1 := ⟨k - 1, by omega⟩
    rw [aiValues, if_pos hi] at he
    by_cases hl : i + 1 = ss
    · -- the last diagonal element: reads h[ss*ss]
      have : h.rd (i + 1 + i * ss) = none := by
        unfold Arr.rd
        rw [if_neg]
        rw [hh, ← hl, Nat.succ_mul]; omega
      rw [this] at he
      cases he
    · have hx : i + 1 + i * ss < h.size := by rw [hh]; have := li_idx (i := i) (k := i + 1) hi (by omega); omega
      have hx2 : i + i * ss < h.size := by omega
      have hx3 : i + (i + 1) * ss < h.size := by
        rw [hh]; have := li_idx (i := i + 1) (k := i) (ss := ss) (by omega) (by omega); omega
      have hx4 : i + 1 + (i + 1) * ss < h.size := by
        rw [hh]; have := li_idx (i := i + 1) (k := i + 1) (ss := ss) (by omega) (by omega); omega
      have e1 : h.rd (i + 1 + i * ss) = some (h.get (i + 1 + i * ss)) := by simp [Arr.rd, hx]
      have e2 : h.rd (i + i * ss) = some (h.get (i + i * ss)) := by simp [Arr.rd, hx2]
      have e3 : h.rd (i + (i + 1) * ss) = some (h.get (i + (i + 1) * ss)) := by simp [Arr.rd, hx3]
      have e4 : h.rd (i + 1 + (i + 1) * ss) = some (h.get (i + 1 + (i + 1) * ss)) := by simp [Arr.rd, hx4]
      simp only [aiBlock, e1, e2, e3, e4, Option.bind_eq_bind, Option.bind_some, Option.pure_def] at he
      split at he
      · obtain ⟨ev1, -, he⟩ := Option.bind_eq_some_iff.1 he
        exact ih k (by omega) (i + 1) ev1 ev' (by omega) (by omega) he
      · split at he
        · obtain ⟨ev1, -, he⟩ := Option.bind_eq_some_iff.1 he
          obtain ⟨ev2, -, he⟩ := Option.bind_eq_some_iff.1 he
          by_cases h2 : i + 2 = ss
          · subst h2
            refine ⟨by omega, ?_, ?_⟩
            · simpa using ‹¬ small _ = true›
            · simpa using ‹neg _ _ _ _ = true›
          · exact ih k (by omega) (i + 2) ev2 ev' (by omega) (by omega) he
        · obtain ⟨ev1, -, he⟩ := Option.bind_eq_some_iff.1 he
          exact ih k (by omega) (i + 1) ev1 ev' (by omega) (by omega) he

/-- **C60 (finding).** The whole of `lis_eai` up to the Ritz values, any arithmetic, any matrix, any `-ss` at least 1, any
result of `lis_array_qr`: it stays inside `h` only if the loop broke down before the last pass and the last 2x2 block of the
matrix left by `lis_array_qr` has a subdiagonal element not below `tol` and complex eigenvalues. -/
theorem aiRitz_defined (K : Kit R S n) (qr : ℕ → Arr R → Option (Arr R)) (hqr : ∀ m a a', qr m a = some a' → a'.size = a.size)
    (small : R → Bool) (neg : R → R → R → R → Bool) (avg : R → R → R) (lt : S → S → Bool) (junk : ℕ → R) (tol : S) (ss : ℕ)
    (hss : 1 ≤ ss) (ev : Arr R) (s : MSt R S n) (r : Arr R × MSt R S n)
    (hr : (aiRitz qr small neg avg lt junk tol ss ev).run K s = some r) :
    ∃ (m : ℕ) (h0 h : Arr R) (s' : MSt R S n), (aiHess lt junk tol ss).run K s = some ((m, h0), s') ∧ 0 < m ∧ m < ss ∧
      lt (EigOps.fabs (h0.get (m + (m - 1) * ss))) tol = true ∧ qr ss h0 = some h ∧
      small (h.get ((ss - 1) + (ss - 2) * ss)) = false ∧
      neg (h.get ((ss - 2) + (ss - 2) * ss)) (h.get ((ss - 2) + (ss - 1) * ss)) (h.get ((ss - 1) + (ss - 2) * ss))
        (h.get ((ss - 1) + (ss - 1) * ss)) = true := by
  unfold aiRitz at hr
  rw [Prog.run_bind] at hr
  obtain ⟨⟨⟨m, h0⟩, s'⟩, e, hr⟩ := Option.bind_eq_some_iff.1 hr
  obtain ⟨a1, a2, a3, a4⟩ := aiHess_breaks K lt junk tol ss hss s _ e
  simp only at a1 a2 a3 a4 hr
  rcases hq : qr ss h0 with _ | h
  · rw [hq, Prog.run_bind] at hr
    cases hr
  · rw [hq, Prog.run_bind] at hr
    simp only [Prog.ofOption, Prog.run, Option.bind_some] at hr
    rcases hv : aiValues small neg avg ss h ss 0 ev with _ | ev'
    · rw [hv] at hr; cases hr
    · obtain ⟨-, b1, b2⟩ := aiValues_some small neg avg ss h (by rw [hqr _ _ _ hq, a3]) ss 0 ev ev' hss (by omega) hv
      exact ⟨m, h0, h, s', e, a1, a2, a4, hq, b1, b2⟩

end Lis
