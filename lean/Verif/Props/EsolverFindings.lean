import Verif.Props.EsolverCsr
import Mathlib.Tactic.NormNum.RealSqrt

/-!
# C38: what the eigensolvers do not guarantee, and concrete cases
-/

namespace Lis
open Matrix

section general
variable {R S M : Type} {n : ℕ}
variable [Zero R] [One R] [Add R] [Neg R] [Mul R] [Div R] [Star R] [DecidableEq R] [RealOps S] [EigOps R S]

/-- **Finding.** With `-emaxiter 0` the power iteration reports the uninitialised variables `theta` and `resid`. -/
theorem lisEpi_maxiter_zero (K : EKit R S M n) (jt : R) (jr : S) (o : EOpts R S) (s : ESt R S M n)
    (h0 : o.maxiter = 0) (hsz : 0 < s.hist.size) :
    Ok ((lisEpi jt jr o).run K s) fun r => r.1 = ⟨.maxiter, some (0, jr, jt + o.sigma)⟩ := by
  refine (lisEpi_contract K jt jr o s (by omega)).mono ?_
  intro r hr
  obtain ⟨x, k, ⟨-, -, c1, c2⟩, hk, -, -, -, h | h | h⟩ := hr.path
  · omega
  · obtain ⟨rfl, -, h3, -⟩ := h
    rw [h3, h0, c1, c2]
  · exact h.2.2.2.2.elim

/-- **Finding.** If the linear solver fails, inverse iteration returns its error and leaves the caller's matrix shifted. -/
theorem lisEii_error_leaves_shifted (K : EKit R S M n) (jt : R) (jr : S) (o : EOpts R S) (s : ESt R S M n)
    (h0 : o.maxiter ≠ 0) (hsz : o.maxiter < s.hist.size) {e : Err} (he : e ≠ .success)
    (hl : ∀ m v y, (K.lin false m v y).1 = e) :
    Ok ((lisEii jt jr o).run K s) fun r => r.1.ret = e ∧ r.2.m = shiftIf K o o.sigma s.m := by
  refine (lisEii_contract K jt jr o s hsz).mono ?_
  intro r hr
  obtain ⟨x, k, ⟨c0, -⟩, hk, hst, -, -, h⟩ := hr.path
  have hk0 : k = 0 := by
    by_contra hk0
    obtain ⟨-, ⟨y0, hy⟩, -⟩ := hst 0 (by omega)
    exact he (by rw [← hl, hy])
  subst hk0
  rcases h with h | h | ⟨-, -, -, -, h1, y0, h2⟩
  · exact absurd h.1 (by omega)
  · exact absurd h.1.symm h0
  · exact ⟨h2.symm.trans (hl _ _ _), by rw [h1]; exact c0⟩

/-- **Finding.** Rayleigh quotient iteration leaves the matrix shifted by the Rayleigh quotient of the starting vector. -/
theorem lisErqi_error_leaves_shifted (K : EKit R S M n) (jr : S) (o : EOpts R S) (s : ESt R S M n)
    (h0 : o.maxiter ≠ 0) (hsz : o.maxiter < s.hist.size) {e : Err} (he : e ≠ .success)
    (hl : ∀ m v y, (K.lin false m v y).1 = e) :
    Ok ((lisErqi jr o).run K s) fun r => r.1.ret = e ∧
      ∃ v, v = unit K.base (eInit o (s.h eV)) ∧ r.2.m = K.shift (K.base.dot v (K.mv false s.m v)) s.m := by
  refine (lisErqi_contract K jr o s hsz).mono ?_
  intro r hr
  obtain ⟨x, k, ⟨c0, c1, c2, -⟩, hk, hst, -, -, h⟩ := hr.path
  have hk0 : k = 0 := by
    by_contra hk0
    obtain ⟨-, y0, y, hy, -⟩ := hst 0 (by omega)
    exact he (by rw [← hl, hy])
  subst hk0
  rcases h with h | h | ⟨-, -, -, -, h1, y0, h2⟩
  · exact absurd h.1 (by omega)
  · exact absurd h.1.symm h0
  · exact ⟨h2.symm.trans (hl _ _ _), _, rfl, by rw [h1]; simp only; rw [c0, c2, c1]⟩
end general

/-- calls on a `2 × 2` real matrix, in real arithmetic; the linear solver is `lin` -/
noncomputable def demoEKit (lin : Matrix (Fin 2) (Fin 2) ℝ → (Fin 2 → ℝ) → Err × (Fin 2 → ℝ)) :
    EKit ℝ ℝ (Matrix (Fin 2) (Fin 2) ℝ) 2 where
  base := { mathKit (fun _ _ => 0) Real.sqrt (fun x => |x|) id id id 0 with dot := fun x y => x ⬝ᵥ y, nrm2 := nrm }
  mv := fun _ A x => A *ᵥ x
  mvh := fun _ A x => Aᵀ *ᵥ x
  shift := fun a A => A - a • 1
  lin := fun _ A v _ => lin A v

theorem demoEKit_exact (lin : Matrix (Fin 2) (Fin 2) ℝ → (Fin 2 → ℝ) → Err × (Fin 2 → ℝ)) :
    (demoEKit lin).Exact (fun _ A => A) fun _ => 1 :=
  ⟨fun _ _ => rfl, fun _ => rfl, fun _ _ => rfl, fun _ _ => rfl, fun _ _ => rfl⟩

/-- one iteration, no shift, the vector given, tolerance `4/3` -/
noncomputable def demoEOpts : EOpts ℝ ℝ := ⟨1, false, true, 4 / 3, 0, 0⟩

theorem nrm_of_sq {v : Fin 2 → ℝ} {a : ℝ} (h : v 0 * v 0 + v 1 * v 1 = a * a) (ha : 0 ≤ a) : nrm v = a := by
  unfold nrm
  rw [dotProduct, Fin.sum_univ_two, h, Real.sqrt_mul_self ha]

/-- **Finding.** The residual the power iteration reports is that of the previous iterate, not of the vector it returns: for
`A = diag(0,1)` and start `(4/5, 3/5)` it reports residual `4/3` (and success at tolerance `4/3`), eigenvalue `9/25` and the
vector `(0,1)`, whose relative residual `‖A x - l x‖/|l|` is `16/9`. -/
theorem lisEpi_residual_of_other_vector (s : ESt ℝ ℝ (Matrix (Fin 2) (Fin 2) ℝ) 2) (hsz : 1 < s.hist.size)
    (hm : s.m = !![0, 0; 0, 1]) (hv : s.h eV = ![4 / 5, 3 / 5])
    (lin : Matrix (Fin 2) (Fin 2) ℝ → (Fin 2 → ℝ) → Err × (Fin 2 → ℝ)) (jt jr : ℝ) :
    Ok ((lisEpi jt jr demoEOpts).run (demoEKit lin) s) fun r =>
      r.1 = ⟨.success, some (1, 4 / 3, 9 / 25)⟩ ∧ r.2.h eV = ![0, 1] ∧
      nrm (s.m *ᵥ r.2.h eV - (9 / 25 : ℝ) • r.2.h eV) / |(9 / 25 : ℝ)| = 16 / 9 := by
  have hK := demoEKit_exact lin
  have hsig : demoEOpts.sigma = 0 := by simp [EOpts.sigma, demoEOpts]
  have hu : unit (demoEKit lin).base ![4 / 5, 3 / 5] = ![4 / 5, 3 / 5] := by
    rw [hK.unit]
    exact unit_of_unit (nrm_of_sq (by simp; norm_num) (by norm_num))
  have step : ∀ p q : EPt ℝ ℝ (Matrix (Fin 2) (Fin 2) ℝ) 2, PowerStep (demoEKit lin) p q → p.m = s.m →
      p.v = ![4 / 5, 3 / 5] → q.v = ![0, 3 / 5] ∧ q.theta = 9 / 25 ∧ q.resid = 4 / 3 := by
    rintro p q ⟨-, a2, a3, a4⟩ hp1 hp2
    rw [hp2, hu] at a2 a3 a4
    rw [hp1, hm] at a2
    have e2 : q.v = ![0, 3 / 5] := by
      rw [a2]
      funext i
      fin_cases i <;> simp [demoEKit, mulVec, dotProduct, Fin.sum_univ_two]
    have e3 : q.theta = 9 / 25 := by
      rw [a3, e2, hK.dot]
      simp [dotProduct, Fin.sum_univ_two]; norm_num
    refine ⟨e2, e3, ?_⟩
    rw [a4, hK.relRes, e2, e3, nrm_of_sq (a := 12 / 25) (by simp; norm_num) (by norm_num)]
    norm_num
  refine (lisEpi_contract (demoEKit lin) jt jr demoEOpts s hsz).mono ?_
  intro r hr
  obtain ⟨x, k, ⟨c0, c1, -⟩, hk, hst, -, -, h⟩ := hr.path
  have c0' : (x 0).m = s.m := by rw [c0]; unfold shiftIf; rw [if_pos hsig]
  have c1' : (x 0).v = ![4 / 5, 3 / 5] := by rw [c1]; simp [eInit, demoEOpts, hv]
  have fin : ∀ r1 : (x 1).v = ![0, 3 / 5], unit (demoEKit lin).base (x 1).v = ![0, 1] := by
    intro r1
    rw [r1, hK.unit, nrm_of_sq (a := 3 / 5) (by simp) (by norm_num)]
    funext i
    fin_cases i <;> simp
  have last : ∀ v : Fin 2 → ℝ, v = ![0, 1] → nrm (s.m *ᵥ v - (9 / 25 : ℝ) • v) / |(9 / 25 : ℝ)| = 16 / 9 := by
    rintro v rfl
    rw [hm, nrm_of_sq (a := 16 / 25)]
    · norm_num
    · simp; norm_num
    · norm_num
  have hk1 : k = 0 ∨ k = 1 := by
    have : demoEOpts.maxiter = 1 := rfl
    omega
  rcases hk1 with rfl | rfl
  · rcases h with h | h | h
    · exact absurd h.1 (by omega)
    · exact absurd h.1 (by simp [demoEOpts])
    · exact h.2.2.2.2.elim
  · obtain ⟨s1, s2, s3⟩ := step _ _ (hst 0 (by omega)) c0' c1'
    rcases h with ⟨-, -, h3, h4, -⟩ | ⟨-, h2, -⟩ | h
    · rw [h3, h4, fin s1]
      refine ⟨?_, rfl, last _ rfl⟩
      simp only [Nat.zero_add] at s2 s3
      rw [s2, s3, hsig, add_zero]
    · exact absurd (show (x 1).resid ≤ demoEOpts.tol by
        simp only [Nat.zero_add] at s3
        rw [s3]; exact le_rfl) (h2 le_rfl)
    · exact h.2.2.2.2.elim

/-- a linear solver that meets `LinSolves`: it copies the right-hand side -/
example : LinSolves (R := ℝ) (n := 3) (fun _ x y h => (psolveNone x y h).map fun h => (.success, h))
    fun _ v _ => (.success, v) := by
  intro A x y h hxy hg
  obtain ⟨h', e, g1, g2⟩ := psolveNone_maps 3 x y h hxy hg
  simp only [e]
  exact ⟨_, rfl, g1, rfl, g2⟩

/-- `diag(2,3)` in CSR meets the hypotheses of `lisEpi_csr` -/
example : (⟨2, 2, 2, Arr.ofList [0, 1, 2], Arr.ofList [0, 1], Arr.ofList [2, 3]⟩ : Csr ℤ).Shiftable 2 := by
  refine ⟨⟨⟨by decide, by decide, ?_, by decide⟩, by decide, by decide, ?_⟩, rfl, rfl, ?_⟩
  · decide
  · decide
  · intro i hi
    exact ⟨i, by interval_cases i <;> decide⟩

end Lis
