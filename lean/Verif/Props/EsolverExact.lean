import Verif.Props.Esolver
import Verif.Lemmas.EsolverExact

/-!
# C38 in real arithmetic: what the eigensolvers' residual says about the pair returned

`A = mat false s.m`, `B = mat true s.m` are the matrices the caller gave. In real arithmetic `x/0 = 0`, so the cases in which
the program would divide by zero are excluded explicitly (there the floating-point residual is infinite or NaN).
-/

namespace Lis
open Matrix
variable {M : Type} {n : ℕ} {K : EKit ℝ ℝ M n} {mat : Bool → M → Matrix (Fin n) (Fin n) ℝ}
  {C : M → Matrix (Fin n) (Fin n) ℝ}

theorem path_const {x : ℕ → EPt ℝ ℝ M n} {k : ℕ} {Step : EPt ℝ ℝ M n → EPt ℝ ℝ M n → Prop}
    (hs : ∀ p q, Step p q → q.m = p.m) (h : ∀ j, j < k → Step (x j) (x (j + 1))) : ∀ j, j ≤ k → (x j).m = (x 0).m := by
  intro j
  induction j with
  | zero => intro _; rfl
  | succ j ih => intro hj; rw [hs _ _ (h j (by omega)), ih (by omega)]

/-- success of an eigensolver: the last step, and the matrix at the end -/
theorem EContract.success {o : EOpts ℝ ℝ} {Start : EPt ℝ ℝ M n → Prop} {Step : EPt ℝ ℝ M n → EPt ℝ ℝ M n → Prop}
    {lam : ℝ → ℝ} {fin : M → M} {nm : (Fin n → ℝ) → (Fin n → ℝ)} {Failed : EPt ℝ ℝ M n → Err → M → Prop}
    {s s' : ESt ℝ ℝ M n} {out : EOut ℝ ℝ} (h : EContract o Start Step lam fin nm Failed s s' out)
    (hs : out.ret = .success) : ∃ (x : ℕ → EPt ℝ ℝ M n) (k : ℕ), k < o.maxiter ∧ Start (x 0) ∧
      (∀ j, j ≤ k → Step (x j) (x (j + 1))) ∧ (x (k + 1)).resid ≤ o.tol ∧
      out.res = some (k + 1, (x (k + 1)).resid, lam (x (k + 1)).theta) ∧ s'.h eV = nm (x (k + 1)).v ∧
      s'.m = fin (x (k + 1)).m := by
  obtain ⟨x, k, h1, h2, h3, -, -, h4⟩ := h.path
  rcases h4 with ⟨a, b, c, d, e⟩ | ⟨a, b, c, d, e⟩ | ⟨a, b, c, d, e⟩
  · obtain ⟨k, rfl⟩ : ∃ l, k = l + 1 := ⟨k - 1, by omega⟩
    exact ⟨x, k, by omega, h1, fun j hj => h3 j (by omega), b, by rw [c], d, e⟩
  · rw [c] at hs; simp at hs
  · exact absurd hs d

/-- the matrix the caller gave, from the shifted one -/
theorem shifted_mulVec (hK : K.Exact mat C) {o : EOpts ℝ ℝ} {m m1 : M} (h : m1 = shiftIf K o o.sigma m)
    (v : Fin n → ℝ) : mat false m1 *ᵥ v = mat false m *ᵥ v - o.sigma • (C m *ᵥ v) := by
  rw [h, hK.shiftIf o o.sigma (fun h => h), Matrix.sub_mulVec, Matrix.smul_mulVec]

theorem restored (hK : K.Exact mat C) {o : EOpts ℝ ℝ} {m m1 : M} (h : m1 = shiftIf K o o.sigma m) :
    mat false (shiftIf K o (-o.sigma) m1) = mat false m ∧ C (shiftIf K o (-o.sigma) m1) = C m := by
  rw [h, hK.shiftIf o _ (fun h => by rw [h]; simp), hK.shiftIf o _ (fun h => h), hK.shiftIfC o _ _, hK.shiftIfC o _ _, hK.shiftIfC o _ _]
  simp

/-- **`lis_epi`** in real arithmetic. On success with eigenvalue `l` and vector `x`: there is a unit vector `u` (the iterate
the residual was computed for) with `l` its Rayleigh quotient and `‖A u - l u‖ = resid |l - sigma|`, and `x` is one more
step `(A - sigma)u` normalized; its residual is `‖(A - sigma)(A u - l u)‖ / ‖(A - sigma) u‖`.  `A` is restored. -/
theorem lisEpi_exact (hK : K.Exact mat fun _ => 1) (jt jr : ℝ) (o : EOpts ℝ ℝ) (s : ESt ℝ ℝ M n)
    (hsz : o.maxiter < s.hist.size) : Ok ((lisEpi jt jr o).run K s) fun r =>
    r.1.ret = .success → ∃ k resid l, r.1.res = some (k, resid, l) ∧ resid ≤ o.tol ∧
      mat false r.2.m = mat false s.m ∧
      (l ≠ o.sigma → ∃ u, nrm u = 1 ∧ l = u ⬝ᵥ (mat false s.m *ᵥ u) ∧
        nrm (mat false s.m *ᵥ u - l • u) = resid * |l - o.sigma| ∧
        nrm (r.2.h eV) = 1 ∧
        nrm (mat false s.m *ᵥ u - o.sigma • u) • r.2.h eV = mat false s.m *ᵥ u - o.sigma • u ∧
        nrm (mat false s.m *ᵥ r.2.h eV - l • r.2.h eV) * nrm (mat false s.m *ᵥ u - o.sigma • u) =
          nrm ((mat false s.m - o.sigma • 1) *ᵥ (mat false s.m *ᵥ u - l • u))) := by
  refine (lisEpi_contract K jt jr o s hsz).mono ?_
  intro r hr hs
  obtain ⟨x, k, hk, ⟨m0, -, -, -⟩, hst, ht, hres, hv, hm⟩ := hr.success hs
  have hmk : ∀ j, j ≤ k + 1 → (x j).m = shiftIf K o o.sigma s.m := fun j hj => by
    rw [path_const (fun p q h => h.1) (fun j hj => hst j (by omega)) j hj, m0]
  refine ⟨_, _, _, hres, ht, ?_, fun hl => ?_⟩
  · rw [hm]; exact (restored hK (hmk _ le_rfl)).1
  · obtain ⟨-, p2, p3, p4⟩ := hst k le_rfl
    generalize x (k + 1) = q at *
    set u := unit K.base (x k).v with hu
    rw [hK.mv, shifted_mulVec hK (hmk k (by omega))] at p2
    simp only [Matrix.one_mulVec] at p2
    rw [hK.dot] at p3
    rw [hK.relRes] at p4
    have hq : q.theta ≠ 0 := fun h => hl (by rw [h]; simp)
    have hu0 : (x k).v ≠ 0 := by
      intro h
      apply hq
      rw [p3, hu, hK.unit, h]; simp
    have hu1 : nrm u = 1 := by rw [hu, hK.unit]; exact nrm_unit hu0
    have huu : u ⬝ᵥ u = 1 := by rw [← nrm_sq, hu1]; simp
    have hy0 : q.v ≠ 0 := by
      intro h
      apply hq
      rw [p3, h]; simp
    have hyn : nrm q.v ≠ 0 := fun h => hy0 (nrm_eq_zero.1 h)
    have hd : mat false s.m *ᵥ u - (q.theta + o.sigma) • u = q.v - q.theta • u := by
      rw [p2, add_smul]; abel
    rw [hv, hK.unit]
    refine ⟨u, hu1, ?_, ?_, nrm_unit hy0, ?_, ?_⟩
    · rw [p3, p2]
      simp only [dotProduct_sub, dotProduct_smul, huu, smul_eq_mul]
      ring
    · rw [hd, p4, add_sub_cancel_right, div_mul_cancel₀ _ (by simpa using hq)]
    · rw [← p2, smul_smul, mul_one_div_cancel hyn, one_smul]
    · rw [← p2, hd]
      have : mat false s.m *ᵥ (1 / nrm q.v) • q.v - (q.theta + o.sigma) • (1 / nrm q.v) • q.v =
          (1 / nrm q.v) • ((mat false s.m - o.sigma • 1) *ᵥ (q.v - q.theta • u)) := by
        rw [Matrix.sub_mulVec, Matrix.smul_mulVec, Matrix.one_mulVec, Matrix.mulVec_sub, Matrix.mulVec_smul,
          Matrix.mulVec_smul]
        have e : mat false s.m *ᵥ u = q.v + o.sigma • u := by rw [p2]; abel
        rw [e]
        module
      rw [this, nrm_smul, abs_of_nonneg (by positivity [nrm_nonneg q.v])]
      field_simp

/-- **`lis_eii`** in real arithmetic, with a linear solver that leaves the residual `‖v - (A - sigma) y‖ ≤ delta`: on success
with eigenvalue `l` and vector `x`, `‖x‖ = 1` and `‖A x - l x‖ ≤ (resid + delta) |l - sigma|`.  With an exact linear solver
(`delta = 0`) the residual reported bounds that of the pair returned. `A` is restored. -/
theorem lisEii_exact (hK : K.Exact mat fun _ => 1) (delta : ℝ)
    (hlin : ∀ m v y0 y, K.lin false m v y0 = (.success, y) → nrm v = 1 → nrm (v - mat false m *ᵥ y) ≤ delta)
    (jt jr : ℝ) (o : EOpts ℝ ℝ) (s : ESt ℝ ℝ M n)
    (hsz : o.maxiter < s.hist.size) : Ok ((lisEii jt jr o).run K s) fun r =>
    r.1.ret = .success → ∃ k resid l, r.1.res = some (k, resid, l) ∧ resid ≤ o.tol ∧
      mat false r.2.m = mat false s.m ∧
      (l ≠ o.sigma → nrm (r.2.h eV) = 1 ∧
        nrm (mat false s.m *ᵥ r.2.h eV - l • r.2.h eV) ≤ (resid + delta) * |l - o.sigma|) := by
  refine (lisEii_contract K jt jr o s hsz).mono ?_
  intro r hr hs
  obtain ⟨x, k, hk, ⟨m0, -, -, -⟩, hst, ht, hres, hv, hm⟩ := hr.success hs
  have hmk : ∀ j, j ≤ k + 1 → (x j).m = shiftIf K o o.sigma s.m := fun j hj => by
    rw [path_const (fun p q h => h.1) (fun j hj => hst j (by omega)) j hj, m0]
  refine ⟨_, _, _, hres, ht, ?_, fun hl => ?_⟩
  · rw [hm]; exact (restored hK (hmk _ le_rfl)).1
  · obtain ⟨-, ⟨y0, p2⟩, p3, p4⟩ := hst k le_rfl
    generalize x (k + 1) = q at *
    set u := unit K.base (x k).v with hu
    rw [hK.dot] at p3
    rw [hK.relRes] at p4
    have hq : q.theta ≠ 0 := fun h => hl (by rw [h]; simp)
    have hu0 : (x k).v ≠ 0 := by
      intro h
      apply hq
      rw [p3, hu, hK.unit, h]; simp
    have hu1 : nrm u = 1 := by rw [hu, hK.unit]; exact nrm_unit hu0
    have hy0 : q.v ≠ 0 := by
      intro h
      apply hq
      rw [p3, h]; simp
    have hyn : 0 < nrm q.v := lt_of_le_of_ne (nrm_nonneg _) fun h => hy0 (nrm_eq_zero.1 h.symm)
    have hd := hlin _ _ _ _ p2 hu1
    rw [shifted_mulVec hK (hmk k (by omega))] at hd
    simp only [Matrix.one_mulVec] at hd
    have hty : |q.theta| ≤ nrm q.v := by
      rw [p3]
      simpa [hu1] using abs_dot_le u q.v
    rw [hv, hK.unit]
    refine ⟨nrm_unit hy0, ?_⟩
    have e : mat false s.m *ᵥ (1 / nrm q.v) • q.v - (1 / q.theta + o.sigma) • (1 / nrm q.v) • q.v =
        (1 / nrm q.v) • (-(u - (mat false s.m *ᵥ q.v - o.sigma • q.v)) + (-(1 / q.theta)) • (q.v - q.theta • u)) := by
      rw [Matrix.mulVec_smul, smul_sub (-(1 / q.theta)), smul_smul _ q.theta]
      rw [show -(1 / q.theta) * q.theta = -1 by field_simp]
      module
    rw [e, nrm_smul, abs_of_nonneg (by positivity), add_sub_cancel_right]
    have h1 := nrm_add_le (-(u - (mat false s.m *ᵥ q.v - o.sigma • q.v))) ((-(1 / q.theta)) • (q.v - q.theta • u))
    rw [nrm_neg, nrm_smul, abs_neg, abs_div, abs_one] at h1
    have hta : 0 < |q.theta| := abs_pos.2 hq
    have h2 : nrm (-(u - (mat false s.m *ᵥ q.v - o.sigma • q.v)) + (-(1 / q.theta)) • (q.v - q.theta • u)) ≤
        q.resid + delta := by
      refine h1.trans ?_
      rw [p4, one_div_mul_eq_div]
      linarith
    have h3 : 1 / nrm q.v ≤ |1 / q.theta| := by
      rw [abs_div, abs_one]
      exact one_div_le_one_div_of_le hta hty
    rw [mul_comm]
    exact mul_le_mul h2 h3 (by positivity) ((nrm_nonneg _).trans h2)

/-- **`lis_erqi`** in real arithmetic with an exact linear solver. On success with eigenvalue `l` and vector `x`, `‖x‖ = 1`,
`l` is the Rayleigh quotient of `x`, and `‖A x - l x‖ = resid |l - rho|` where `rho` is the previous Rayleigh quotient (the
shift of the last iteration).  `A` is restored. -/
theorem lisErqi_exact (hK : K.Exact mat fun _ => 1)
    (hlin : ∀ m v y0 y, K.lin false m v y0 = (.success, y) → mat false m *ᵥ y = v)
    (jr : ℝ) (o : EOpts ℝ ℝ) (s : ESt ℝ ℝ M n) (hv0 : eInit o (s.h eV) ≠ 0)
    (hsz : o.maxiter < s.hist.size) : Ok ((lisErqi jr o).run K s) fun r =>
    r.1.ret = .success → ∃ k resid l, r.1.res = some (k, resid, l) ∧ resid ≤ o.tol ∧
      mat false r.2.m = mat false s.m ∧ nrm (r.2.h eV) = 1 ∧ l = r.2.h eV ⬝ᵥ (mat false s.m *ᵥ r.2.h eV) ∧
      ∃ rho v y, nrm v = 1 ∧ rho = v ⬝ᵥ (mat false s.m *ᵥ v) ∧ mat false s.m *ᵥ y - rho • y = v ∧
        nrm y • r.2.h eV = y ∧
        (v ⬝ᵥ y ≠ 0 → nrm (mat false s.m *ᵥ r.2.h eV - l • r.2.h eV) = resid * |l - rho|) := by
  refine (lisErqi_contract K jr o s hsz).mono ?_
  intro r hr hs
  obtain ⟨x, k, hk, ⟨m0, m1, m2, -⟩, hst, ht, hres, hv, hm⟩ := hr.success hs
  -- what one step does
  have step : ∀ p q : EPt ℝ ℝ M n, RayleighStep K p q → mat false p.m = mat false s.m → nrm p.v = 1 →
      ∃ y, mat false s.m *ᵥ y - p.theta • y = p.v ∧ y ≠ 0 ∧ mat false q.m = mat false s.m ∧ q.v = (1 / nrm y) • y ∧
        q.theta = p.theta + p.v ⬝ᵥ y / (y ⬝ᵥ y) ∧ q.resid = nrm (y - (p.v ⬝ᵥ y) • p.v) / |p.v ⬝ᵥ y| := by
    rintro p q ⟨a1, y0, y, a2, a3, a4, a5⟩ hpm hpv
    have hy := hlin _ _ _ _ a2
    rw [hK.shift, Matrix.sub_mulVec, Matrix.smul_mulVec, Matrix.one_mulVec, hpm] at hy
    refine ⟨y, hy, ?_, ?_, ?_, ?_, ?_⟩
    · rintro rfl
      rw [← hy] at hpv
      simp [nrm] at hpv
    · rw [a1, hK.shiftBack, hpm]
    · rw [a5, hK.nrm2]; rfl
    · rw [a3, hK.dot, hK.nrm2, ← nrm_sq]; rfl
    · rw [a4, hK.relRes, hK.dot]
  have inv : ∀ j, j ≤ k + 1 → mat false (x j).m = mat false s.m ∧ nrm (x j).v = 1 ∧
      (x j).theta = (x j).v ⬝ᵥ (mat false s.m *ᵥ (x j).v) := by
    intro j
    induction j with
    | zero =>
      intro _
      refine ⟨by rw [m0], ?_, ?_⟩
      · rw [m1, hK.unit]; exact nrm_unit hv0
      · rw [m2, hK.dot, hK.mv]
    | succ j ih =>
      intro hj
      obtain ⟨i1, i2, -⟩ := ih (by omega)
      obtain ⟨y, b1, b2, b3, b4, b5, -⟩ := step _ _ (hst j (by omega)) i1 i2
      have hyy : y ⬝ᵥ y ≠ 0 := by
        rw [← nrm_sq]; exact mul_ne_zero (fun h => b2 (nrm_eq_zero.1 h)) fun h => b2 (nrm_eq_zero.1 h)
      have hyn : nrm y ≠ 0 := fun h => b2 (nrm_eq_zero.1 h)
      refine ⟨b3, by rw [b4]; exact nrm_unit b2, ?_⟩
      have e : mat false s.m *ᵥ y = (x j).v + (x j).theta • y := by rw [← b1]; abel
      rw [b5, b4, Matrix.mulVec_smul, e, smul_dotProduct, dotProduct_smul, dotProduct_add, dotProduct_smul,
        dotProduct_comm y (x j).v]
      simp only [smul_eq_mul]
      rw [← nrm_sq]
      field_simp
      ring
  obtain ⟨i1, i2, i3⟩ := inv k (by omega)
  obtain ⟨j1, j2, j3⟩ := inv (k + 1) le_rfl
  obtain ⟨y, b1, b2, b3, b4, b5, b6⟩ := step _ _ (hst k le_rfl) i1 i2
  generalize x (k + 1) = q at *
  have hyn : nrm y ≠ 0 := fun h => b2 (nrm_eq_zero.1 h)
  have hx : r.2.h eV = q.v := by rw [hv, hK.unit, unit_of_unit j2]
  refine ⟨_, _, _, hres, ht, by rw [hm]; exact b3, by rw [hx]; exact j2, by rw [hx]; exact j3, (x k).theta, (x k).v, y, i2, i3,
    b1, ?_, fun hc => ?_⟩
  · rw [hx, b4, smul_smul, mul_one_div_cancel hyn, one_smul]
  · rw [hx, b4, b6]
    set v := (x k).v
    set rho := (x k).theta
    set c := v ⬝ᵥ y with hcd
    have hyp : 0 < nrm y := lt_of_le_of_ne (nrm_nonneg _) (Ne.symm hyn)
    have e : mat false s.m *ᵥ y = v + rho • y := by rw [← b1]; abel
    have e2 : mat false s.m *ᵥ (1 / nrm y) • y - q.theta • (1 / nrm y) • y =
        (1 / nrm y) • (v - (c / (y ⬝ᵥ y)) • y) := by
      rw [Matrix.mulVec_smul, e, b5]
      module
    have hvv : v ⬝ᵥ v = 1 := by rw [← nrm_sq, i2]; simp
    have hyv : y ⬝ᵥ v = c := by rw [dotProduct_comm]
    have hY : y ⬝ᵥ y = nrm y * nrm y := (nrm_sq y).symm
    -- both norms
    have n1 : nrm (v - (c / (y ⬝ᵥ y)) • y) = nrm (y - c • v) / nrm y := by
      rw [eq_div_iff hyn]
      have h1 : nrm (v - (c / (y ⬝ᵥ y)) • y) * nrm y = nrm (nrm y • (v - (c / (y ⬝ᵥ y)) • y)) := by
        rw [nrm_smul, abs_of_pos hyp, mul_comm]
      rw [h1]
      unfold nrm
      congr 1
      change nrm y • (v - (c / (y ⬝ᵥ y)) • y) ⬝ᵥ nrm y • (v - (c / (y ⬝ᵥ y)) • y) = (y - c • v) ⬝ᵥ (y - c • v)
      simp only [smul_dotProduct, dotProduct_smul, sub_dotProduct, dotProduct_sub, smul_eq_mul, hvv, hyv, ← hcd, hY]
      field_simp
    rw [e2, nrm_smul, n1, b5, add_sub_cancel_left, abs_of_pos (by positivity : 0 < 1 / nrm y), abs_div, hY,
      abs_of_pos (by positivity : 0 < nrm y * nrm y)]
    have : |c| ≠ 0 := by simpa using hc
    field_simp

/-- **`lis_egpi`** in real arithmetic with an exact linear solver: on success with eigenvalue `l` and vector `x` there are `v`
with `⟨v, (A - sigma B) v⟩ = 1` and `y` with `B y = (A - sigma B) v`, `‖y - (l - sigma) v‖ = resid |l - sigma|`, and
`x = y/‖y‖`. -/
theorem lisEgpi_exact (hK : K.Exact mat (mat true))
    (hlin : ∀ m v y0 y, K.lin true m v y0 = (.success, y) → mat true m *ᵥ y = v)
    (jt jr : ℝ) (o : EOpts ℝ ℝ) (s : ESt ℝ ℝ M n)
    (hsz : o.maxiter < s.hist.size) : Ok ((lisEgpi jt jr o).run K s) fun r =>
    r.1.ret = .success → ∃ k resid l, r.1.res = some (k, resid, l) ∧ resid ≤ o.tol ∧
      mat false r.2.m = mat false s.m ∧ mat true r.2.m = mat true s.m ∧
      (l ≠ o.sigma → ∃ v y, v ⬝ᵥ ((mat false s.m - o.sigma • mat true s.m) *ᵥ v) = 1 ∧
        mat true s.m *ᵥ y = (mat false s.m - o.sigma • mat true s.m) *ᵥ v ∧
        nrm (y - (l - o.sigma) • v) = resid * |l - o.sigma| ∧ nrm (r.2.h eV) = 1 ∧ nrm y • r.2.h eV = y) := by
  refine (lisEgpi_contract K jt jr o s hsz).mono ?_
  intro r hr hs
  obtain ⟨x, k, hk, ⟨m0, -, -, -⟩, hst, ht, hres, hv, hm⟩ := hr.success hs
  have hmk : ∀ j, j ≤ k + 1 → (x j).m = shiftIf K o o.sigma s.m := fun j hj => by
    rw [path_const (fun p q h => h.1) (fun j hj => hst j (by omega)) j hj, m0]
  refine ⟨_, _, _, hres, ht, ?_, ?_, fun hl => ?_⟩
  · rw [hm]; exact (restored hK (hmk _ le_rfl)).1
  · rw [hm]; exact (restored hK (hmk _ le_rfl)).2
  · obtain ⟨-, ⟨y0, p2⟩, p3, p4⟩ := hst k le_rfl
    generalize x (k + 1) = q at *
    have hA : mat false (x k).m = mat false s.m - o.sigma • mat true s.m := by
      rw [hmk k (by omega), hK.shiftIf o _ (fun h => h)]
    have hBk : mat true (x k).m = mat true s.m := by rw [hmk k (by omega), hK.shiftIfC o _ _]
    have hy := hlin _ _ _ _ p2
    rw [hBk] at hy
    rw [hK.dot] at p3
    rw [hK.relRes] at p4
    simp only [genScale, smulV_eq, hK.mv, hA, hK.dot, Bool.false_eq_true, if_false] at hy p3 p4
    set u := unit K.base (x k).v
    set A := mat false s.m - o.sigma • mat true s.m
    set eta : ℝ := EigOps.sqrt ℝ (u ⬝ᵥ A *ᵥ u) with heta
    have hq : q.theta ≠ 0 := fun h => hl (by rw [h]; simp)
    have he : eta ≠ 0 := by
      intro h
      apply hq
      rw [p3, h]; simp
    have hee : eta * eta = u ⬝ᵥ A *ᵥ u := by
      apply Real.mul_self_sqrt
      by_contra hneg
      exact he (Real.sqrt_eq_zero_of_nonpos (by linarith))
    have hy0 : q.v ≠ 0 := by
      intro h
      apply hq
      rw [p3, h]; simp
    have hyn : nrm q.v ≠ 0 := fun h => hy0 (nrm_eq_zero.1 h)
    rw [hv, hK.unit]
    refine ⟨(1 / eta) • u, q.v, ?_, ?_, ?_, nrm_unit hy0, ?_⟩
    · rw [Matrix.mulVec_smul, smul_dotProduct, dotProduct_smul, ← hee]
      simp only [smul_eq_mul]
      field_simp
    · rw [hy, Matrix.mulVec_smul]
    · rw [add_sub_cancel_right, p4, div_mul_cancel₀ _ (by simpa using hq)]
    · rw [smul_smul, mul_one_div_cancel hyn, one_smul]

/-- **`lis_egii`** in real arithmetic with an exact linear solver: on success with eigenvalue `l` and vector `x` there are `v`
with `⟨v, B v⟩ = 1` and `y = ‖y‖ x` with `(A - sigma B) y = B v` and `‖(l - sigma) y - v‖ = resid`; hence
`A y - l B y = B (v - (l - sigma) y)`. -/
theorem lisEgii_exact (hK : K.Exact mat (mat true))
    (hB : ∀ m x, K.mv true m x = mat true m *ᵥ x)
    (hlin : ∀ m v y0 y, K.lin false m v y0 = (.success, y) → mat false m *ᵥ y = v)
    (jt jr : ℝ) (o : EOpts ℝ ℝ) (s : ESt ℝ ℝ M n)
    (hsz : o.maxiter < s.hist.size) : Ok ((lisEgii jt jr o).run K s) fun r =>
    r.1.ret = .success → ∃ k resid l, r.1.res = some (k, resid, l) ∧ resid ≤ o.tol ∧
      mat false r.2.m = mat false s.m ∧ mat true r.2.m = mat true s.m ∧
      (l ≠ o.sigma → ∃ v y, v ⬝ᵥ (mat true s.m *ᵥ v) = 1 ∧
        (mat false s.m - o.sigma • mat true s.m) *ᵥ y = mat true s.m *ᵥ v ∧
        nrm ((l - o.sigma) • y - v) = resid ∧ nrm (r.2.h eV) = 1 ∧ nrm y • r.2.h eV = y ∧
        mat false s.m *ᵥ y - l • (mat true s.m *ᵥ y) = mat true s.m *ᵥ (v - (l - o.sigma) • y)) := by
  refine (lisEgii_contract K jt jr o s hsz).mono ?_
  intro r hr hs
  obtain ⟨x, k, hk, ⟨m0, -, -, -⟩, hst, ht, hres, hv, hm⟩ := hr.success hs
  have hmk : ∀ j, j ≤ k + 1 → (x j).m = shiftIf K o o.sigma s.m := fun j hj => by
    rw [path_const (fun p q h => h.1) (fun j hj => hst j (by omega)) j hj, m0]
  refine ⟨_, _, _, hres, ht, ?_, ?_, fun hl => ?_⟩
  · rw [hm]; exact (restored hK (hmk _ le_rfl)).1
  · rw [hm]; exact (restored hK (hmk _ le_rfl)).2
  · obtain ⟨-, ⟨y0, p2⟩, p3, p4⟩ := hst k le_rfl
    generalize x (k + 1) = q at *
    have hA : mat false (x k).m = mat false s.m - o.sigma • mat true s.m := by
      rw [hmk k (by omega), hK.shiftIf o _ (fun h => h)]
    have hBk : mat true (x k).m = mat true s.m := by rw [hmk k (by omega), hK.shiftIfC o _ _]
    have hy := hlin _ _ _ _ p2
    rw [hA] at hy
    rw [hK.dot] at p3
    rw [hK.relRes] at p4
    simp only [genScale, smulV_eq, hB, hBk, hK.dot, if_true] at hy p3 p4
    set u := unit K.base (x k).v
    set B := mat true s.m
    set eta : ℝ := EigOps.sqrt ℝ ((B *ᵥ u) ⬝ᵥ u) with heta
    have hq : q.theta ≠ 0 := fun h => hl (by rw [h]; simp)
    have he : eta ≠ 0 := by
      intro h
      apply hq
      rw [p3, h]; simp
    have hee : eta * eta = (B *ᵥ u) ⬝ᵥ u := by
      apply Real.mul_self_sqrt
      by_contra hneg
      exact he (Real.sqrt_eq_zero_of_nonpos (by linarith))
    have hy0 : q.v ≠ 0 := by
      intro h
      apply hq
      rw [p3, h]; simp
    have hyn : nrm q.v ≠ 0 := fun h => hy0 (nrm_eq_zero.1 h)
    rw [hv, hK.unit]
    refine ⟨(1 / eta) • u, q.v, ?_, ?_, ?_, nrm_unit hy0, ?_, ?_⟩
    · rw [Matrix.mulVec_smul, smul_dotProduct, dotProduct_smul, dotProduct_comm, ← hee]
      simp only [smul_eq_mul]
      field_simp
    · rw [hy, Matrix.mulVec_smul]
    · rw [add_sub_cancel_right, p4]
      have : (1 / q.theta) • q.v - (1 / eta) • u = (1 / q.theta) • (q.v - q.theta • (1 / eta) • u) := by
        rw [smul_sub, smul_smul _ q.theta, one_div_mul_cancel hq, one_smul]
      rw [this, nrm_smul, abs_div, abs_one, one_div_mul_eq_div]
    · rw [smul_smul, mul_one_div_cancel hyn, one_smul]
    · rw [add_sub_cancel_right, Matrix.mulVec_sub, Matrix.mulVec_smul, Matrix.mulVec_smul, ← hy, Matrix.sub_mulVec,
        Matrix.smul_mulVec]
      module

/-- **`lis_egrqi`** in real arithmetic with an exact linear solver: on success with eigenvalue `l` and vector `x` there are
`rho`, `v`, `y` with `(A - rho B) y = B v`, `l = rho + ⟨B v, y⟩/⟨B y, y⟩`, `resid = 1/|⟨B v, y⟩|` and `x = y/‖y‖`; hence
`A y - l B y = B (v - (l - rho) y)`. From the second iteration on `⟨v, B v⟩ = 1`. -/
theorem lisEgrqi_exact (hK : K.Exact mat (mat true))
    (hB : ∀ m x, K.mv true m x = mat true m *ᵥ x)
    (hlin : ∀ m v y0 y, K.lin false m v y0 = (.success, y) → mat false m *ᵥ y = v)
    (jr : ℝ) (o : EOpts ℝ ℝ) (s : ESt ℝ ℝ M n) (hpos : ∀ u : Fin n → ℝ, u ≠ 0 → 0 < u ⬝ᵥ (mat true s.m *ᵥ u))
    (hv0 : eInit o (s.h eV) ≠ 0) (hsz : o.maxiter < s.hist.size) : Ok ((lisEgrqi jr o).run K s) fun r =>
    r.1.ret = .success → ∃ k resid l, r.1.res = some (k, resid, l) ∧ resid ≤ o.tol ∧
      mat false r.2.m = mat false s.m ∧ mat true r.2.m = mat true s.m ∧
      ∃ rho v y, (mat false s.m - rho • mat true s.m) *ᵥ y = mat true s.m *ᵥ v ∧ y ≠ 0 ∧
        l - rho = (mat true s.m *ᵥ v) ⬝ᵥ y / (y ⬝ᵥ (mat true s.m *ᵥ y)) ∧ resid = 1 / |(mat true s.m *ᵥ v) ⬝ᵥ y| ∧
        nrm (r.2.h eV) = 1 ∧ nrm y • r.2.h eV = y ∧ (k ≠ 1 → v ⬝ᵥ (mat true s.m *ᵥ v) = 1) ∧
        mat false s.m *ᵥ y - l • (mat true s.m *ᵥ y) = mat true s.m *ᵥ (v - (l - rho) • y) := by
  refine (lisEgrqi_contract K jr o s hsz).mono ?_
  intro r hr hs
  obtain ⟨x, k, hk, ⟨m0, m1, m2, -⟩, hst, ht, hres, hv, hm⟩ := hr.success hs
  have step : ∀ p q : EPt ℝ ℝ M n, GenRayleighStep K p q → mat false p.m = mat false s.m → mat true p.m = mat true s.m →
      p.v ≠ 0 → p.w = mat true s.m *ᵥ p.v →
      ∃ y eta, (mat false s.m - p.theta • mat true s.m) *ᵥ y = p.w ∧ y ≠ 0 ∧ mat false q.m = mat false s.m ∧
        mat true q.m = mat true s.m ∧ eta * eta = y ⬝ᵥ (mat true s.m *ᵥ y) ∧ 0 < eta ∧ q.v = (1 / eta) • y ∧
        q.w = mat true s.m *ᵥ q.v ∧ q.theta = p.theta + p.w ⬝ᵥ y / (y ⬝ᵥ (mat true s.m *ᵥ y)) ∧
        q.resid = 1 / |p.w ⬝ᵥ y| := by
    rintro p q ⟨a1, y0, y, a2, a3, a4, a5, a6⟩ hpm hpB hpv hpw
    have hy := hlin _ _ _ _ a2
    rw [hK.shift, hpm, hpB] at hy
    have hqB : mat true q.m = mat true s.m := by rw [a1, hK.shiftC, hK.shiftC, hpB]
    have hy0 : y ≠ 0 := by
      rintro rfl
      have := hpos _ hpv
      rw [← hpw, ← hy] at this
      simp at this
    have hp := hpos _ hy0
    simp only [hB, hK.dot, hqB, dotProduct_comm _ y] at a3 a5 a6
    have hee : EigOps.sqrt ℝ (y ⬝ᵥ (mat true s.m *ᵥ y)) * EigOps.sqrt ℝ (y ⬝ᵥ (mat true s.m *ᵥ y)) =
        y ⬝ᵥ (mat true s.m *ᵥ y) := Real.mul_self_sqrt hp.le
    refine ⟨y, EigOps.sqrt ℝ (y ⬝ᵥ (mat true s.m *ᵥ y)), hy, hy0, ?_, hqB, hee, Real.sqrt_pos.2 hp, a5, ?_, ?_, ?_⟩
    · rw [a1, hK.shiftBack, hpm]
    · rw [a6, a5, smulV_eq, smulV_eq, Matrix.mulVec_smul]
    · rw [a3, hee, dotProduct_comm]
    · rw [a4, hK.dot]; rfl
  have inv : ∀ j, j ≤ k + 1 → mat false (x j).m = mat false s.m ∧ mat true (x j).m = mat true s.m ∧ (x j).v ≠ 0 ∧
      (x j).w = mat true s.m *ᵥ (x j).v ∧ (j ≠ 0 → (x j).v ⬝ᵥ (mat true s.m *ᵥ (x j).v) = 1) := by
    intro j
    induction j with
    | zero =>
      intro _
      refine ⟨by rw [m0], by rw [m0], ?_, ?_, fun h => absurd rfl h⟩
      · intro h
        have := nrm_unit hv0
        rw [← hK.unit, ← m1, h] at this
        simp [nrm] at this
      · rw [m2, hB]
    | succ j ih =>
      intro hj
      obtain ⟨i1, i2, i3, i4, -⟩ := ih (by omega)
      obtain ⟨y, eta, b1, b2, b3, b4, b5, b6, b7, b8, -, -⟩ := step _ _ (hst j (by omega)) i1 i2 i3 i4
      refine ⟨b3, b4, ?_, b8, fun _ => ?_⟩
      · rw [b7]
        exact smul_ne_zero (by positivity) b2
      · rw [b7, Matrix.mulVec_smul, smul_dotProduct, dotProduct_smul, ← b5]
        simp only [smul_eq_mul]
        field_simp
  obtain ⟨i1, i2, i3, i4, i5⟩ := inv k (by omega)
  obtain ⟨j1, j2, j3, -, -⟩ := inv (k + 1) le_rfl
  obtain ⟨y, eta, b1, b2, b3, b4, b5, b6, b7, b8, b9, b10⟩ := step _ _ (hst k le_rfl) i1 i2 i3 i4
  generalize x (k + 1) = q at *
  have hyn : nrm y ≠ 0 := fun h => b2 (nrm_eq_zero.1 h)
  rw [i4] at b1 b9 b10
  refine ⟨_, _, _, hres, ht, by rw [hm]; exact j1, by rw [hm]; exact j2, (x k).theta, (x k).v, y, b1, b2, ?_, b10, ?_, ?_,
    fun h => i5 (by omega), ?_⟩
  · rw [b9, add_sub_cancel_left]
  · rw [hv, hK.unit]; exact nrm_unit j3
  · rw [hv, hK.unit, b7, nrm_smul, abs_of_pos (by positivity), smul_smul, smul_smul]
    rw [show nrm y * (1 / (1 / eta * nrm y)) * (1 / eta) = 1 by field_simp, one_smul]
  · rw [Matrix.mulVec_sub, Matrix.mulVec_smul, ← b1, Matrix.sub_mulVec, Matrix.smul_mulVec]
    module

end Lis
