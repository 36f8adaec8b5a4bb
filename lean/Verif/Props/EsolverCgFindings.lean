import Verif.Props.EsolverCgExact
import Verif.Props.EsolverFindings
import Verif.Props.Stale

/-!
# C57: findings about the CG and CR eigensolvers, and cases that meet the hypotheses
-/

namespace Lis
open Matrix
variable {M : Type} {n : ℕ} {K : EKit ℝ ℝ M n} {mat : Bool → M → Matrix (Fin n) (Fin n) ℝ}
  {C : M → Matrix (Fin n) (Fin n) ℝ}

/-- **`lis_egcg`** in real arithmetic: the vector returned is the initial vector normalized, for every return code. -/
theorem lisEgcg_returns_start (hK : K.Exact mat C) (rr : Arr ℝ → Arr ℝ → ℝ × ℝ × ℝ) (jl jr : ℝ) (o : EOpts ℝ ℝ)
    (s : ESt ℝ ℝ M n) (hsz : o.maxiter < s.hist.size) (hu : eInit o (s.h eV) ≠ 0) (p : Fin n → ℝ)
    (hlin : K.lin false (shiftIf K o o.sigma s.m) (unit K.base (eInit o (s.h eV))) (s.h 3) = (.success, p)) :
    Ok ((lisEgcg rr ltR .success jl jr o).run K s) fun r =>
      r.2.h eV = (1 / nrm (eInit o (s.h eV))) • eInit o (s.h eV) := by
  refine (lisEgcg_start_vector K rr ltR jl jr o s hsz p hlin).mono ?_
  rintro r ⟨j, -, e⟩
  rw [e, Function.iterate_succ_apply, hK.unit]
  have h1 : nrm ((1 / nrm (eInit o (s.h eV))) • eInit o (s.h eV)) = 1 := nrm_unit hu
  exact Function.iterate_fixed (by rw [hK.unit]; exact unit_of_unit h1) j

/-- calls on a pair of `2 × 2` real matrices `(A, B)` -/
noncomputable def demoGKit (lin : Matrix (Fin 2) (Fin 2) ℝ → (Fin 2 → ℝ) → Err × (Fin 2 → ℝ)) :
    EKit ℝ ℝ (Matrix (Fin 2) (Fin 2) ℝ × Matrix (Fin 2) (Fin 2) ℝ) 2 where
  base := (demoEKit lin).base
  mv := fun b m x => (if b then m.2 else m.1) *ᵥ x
  mvh := fun b m x => (if b then m.2 else m.1)ᵀ *ᵥ x
  shift := fun a m => (m.1 - a • m.2, m.2)
  lin := fun b m v _ => lin (if b then m.2 else m.1) v

/-- the matrices of the pair -/
def pairMat (b : Bool) (m : Matrix (Fin 2) (Fin 2) ℝ × Matrix (Fin 2) (Fin 2) ℝ) : Matrix (Fin 2) (Fin 2) ℝ :=
  if b then m.2 else m.1

theorem demoGKit_exact (lin : Matrix (Fin 2) (Fin 2) ℝ → (Fin 2 → ℝ) → Err × (Fin 2 → ℝ)) :
    (demoGKit lin).Exact pairMat (pairMat true) :=
  ⟨fun _ _ => rfl, fun _ => rfl, fun _ _ => rfl, fun _ _ => rfl, fun _ _ => rfl⟩

/-- **Finding.** `lis_egcg` for `A = diag(1,2)`, `B = 1` and the start `(3/5, 4/5)`: whatever the options, the preconditioner's
and the 3×3 iteration's results are, the vector returned is not an eigenvector (for no `l` is `A x = l B x`). -/
theorem lisEgcg_not_an_eigenvector (rr : Arr ℝ → Arr ℝ → ℝ × ℝ × ℝ) (jl jr : ℝ) (o : EOpts ℝ ℝ) (ho : o.ones = false)
    (lin : Matrix (Fin 2) (Fin 2) ℝ → (Fin 2 → ℝ) → Err × (Fin 2 → ℝ)) (hlin : ∀ A v, (lin A v).1 = .success)
    (s : ESt ℝ ℝ (Matrix (Fin 2) (Fin 2) ℝ × Matrix (Fin 2) (Fin 2) ℝ) 2) (hsz : o.maxiter < s.hist.size)
    (hv : s.h eV = ![3 / 5, 4 / 5]) :
    Ok ((lisEgcg rr ltR .success jl jr o).run (demoGKit lin) s) fun r =>
      ∀ l : ℝ, !![1, 0; 0, 2] *ᵥ r.2.h eV ≠ l • ((1 : Matrix (Fin 2) (Fin 2) ℝ) *ᵥ r.2.h eV) := by
  have hi : eInit o (s.h eV) = ![3 / 5, 4 / 5] := by rw [eInit, ho, hv]; rfl
  have hn : nrm ![(3 / 5 : ℝ), 4 / 5] = 1 := nrm_of_sq (by norm_num) (by norm_num)
  refine (lisEgcg_returns_start (demoGKit_exact lin) rr jl jr o s hsz ?_
    (lin (shiftIf (demoGKit lin) o o.sigma s.m).1 (unit (demoGKit lin).base (eInit o (s.h eV)))).2 ?_).mono ?_
  · rw [hi]; intro h; have := congrFun h 0; norm_num at this
  · exact Prod.ext (hlin _ _) rfl
  · intro r hr l h
    rw [hr, hi, hn] at h
    have h0 := congrFun h 0
    have h1 := congrFun h 1
    simp [mulVec, dotProduct, Fin.sum_univ_two] at h0 h1
    linarith

/-- **Finding.** When the initial vector is an eigenvector of `A` (e.g. all ones, the default, for a matrix with constant row
sums), the direction `p` of `lis_ecr` is zero, and in the first iteration both terms of the quotient
`alpha = (⟨r,Ap⟩ - lambda⟨r,p⟩)/(⟨Ap,Ap⟩ - 2 lambda⟨p,Ap⟩ + lambda²⟨p,p⟩)` are zero. -/
theorem ecr_start_eigenvector (hK : K.Exact mat C) (m : M) (u : Fin n → ℝ) (hu : u ≠ 0) (t jr : ℝ)
    (ht : mat false m *ᵥ u = t • u) :
    let q := crStart K m u jr
    q.lam = t ∧ q.p = 0 ∧ q.Ap = 0 ∧ q.r ⬝ᵥ q.Ap - q.lam * q.r ⬝ᵥ q.p = 0 ∧
      q.Ap ⬝ᵥ q.Ap - (1 + 1) * q.lam * q.p ⬝ᵥ q.Ap + q.lam * q.lam * q.p ⬝ᵥ q.p = 0 := by
  intro q
  have hx : (1 / nrm u) • u ⬝ᵥ (1 / nrm u) • u = 1 := by rw [← nrm_sq, nrm_unit hu]; simp
  have hA : mat false m *ᵥ (1 / nrm u) • u = t • (1 / nrm u) • u := by rw [Matrix.mulVec_smul, ht]; module
  have hl : q.lam = t := by
    simp only [q, crStart, hK.dot, hK.mv, hK.unit]
    rw [hA, dotProduct_smul, hx]; simp
  have hr : q.r = 0 := by
    have e : q.r = (-1 : ℝ) • (-q.lam • unit K.base u + mat false m *ᵥ unit K.base u) := by
      simp only [q, crStart, smulV_eq, axpyzV_eq, hK.mv]
    rw [e, hl, hK.unit, hA]; module
  have hp : q.p = 0 := hr
  have hAp : q.Ap = 0 := by
    have e : q.Ap = mat false m *ᵥ q.r := by simp only [q, crStart, hK.mv]
    rw [e, hr]; simp
  refine ⟨hl, hp, hAp, ?_, ?_⟩ <;> rw [hp, hAp] <;> simp

/-! ### the breakdown, run with a NaN -/

instance : EigOps NQ NQ where
  fabs := RealOps.fabs
  ofS := id
  sqrt := id

/-- `√q`, for squares of rational numbers; otherwise NaN (not met below) -/
def sqrtNQ : NQ → NQ
  | .val q => if (Nat.sqrt q.num.toNat : ℚ) / Nat.sqrt q.den * (Nat.sqrt q.num.toNat / Nat.sqrt q.den) = q then
      .val (Nat.sqrt q.num.toNat / Nat.sqrt q.den) else .nan
  | .nan => .nan

def ltNQ : NQ → NQ → Bool
  | .val a, .val b => decide (a < b)
  | _, _ => false

/-- the circulant matrix with rows `2 1 0 1`; its rows sum up to `4` -/
def circKit : EKit NQ NQ Unit 4 where
  base :=
    { mv := id, mvh := id, ps := id, psh := id, ls := id, rdg := fun _ => 1,
      dot := fun x y => x 0 * y 0 + x 1 * y 1 + x 2 * y 2 + x 3 * y 3,
      nhdot := fun x y => x 0 * y 0 + x 1 * y 1 + x 2 * y 2 + x 3 * y 3,
      nrm2 := fun x => sqrtNQ (x 0 * x 0 + x 1 * x 1 + x 2 * x 2 + x 3 * x 3),
      nrm1 := fun x => RealOps.fabs (x 0) + RealOps.fabs (x 1) + RealOps.fabs (x 2) + RealOps.fabs (x 3) }
  mv := fun _ _ x => ![.val 2 * x 0 + x 1 + x 3, x 0 + .val 2 * x 1 + x 2, x 1 + .val 2 * x 2 + x 3, x 0 + x 2 + .val 2 * x 3]
  mvh := fun _ _ x => x
  shift := fun _ m => m
  lin := fun _ _ v _ => (.success, v)

/-- **Finding.** The default eigensolver from its default initial vector on that matrix, whose exact eigenvector the initial
vector is: it ends with `LIS_MAXITER`, eigenvalue NaN and a vector of NaNs.  Power iteration on the same problem succeeds with
eigenvalue `4` in the first iteration. -/
theorem ecr_breaks_down_on_eigenvector :
    (((lisEcr ltNQ .success (.val 7) ⟨2, true, false, .val (1 / 100), .val 0, .val 0⟩).run circKit
      ⟨(), fun _ _ => .val 0, ⟨3, fun _ => .val 0⟩⟩).map fun r => (r.1.ret, r.1.res, r.2.h eV 0)) =
      some (.maxiter, some (2, .nan, .nan), .nan) ∧
    (((lisEpi (.val 7) (.val 7) ⟨2, true, false, .val (1 / 100), .val 0, .val 0⟩).run circKit
      ⟨(), fun _ _ => .val 0, ⟨3, fun _ => .val 0⟩⟩).map fun r => (r.1.ret, r.1.res, r.2.h eV 0)) =
      some (.success, some (1, .val 0, .val 4), .val (1 / 2)) := by
  refine ⟨?_, ?_⟩
  · decide +kernel
  · decide +kernel

/-! ### cases that meet the hypotheses -/

/-- `lis_ecr` on any symmetric `2 × 2` matrix from any start vector -/
example (a b c : ℝ) (u : Fin 2 → ℝ) : Ok ((lisEcr ltR .success 0 ⟨5, false, true, 1 / 100, 0, 0⟩).run
    (demoEKit fun _ v => (.success, v)) ⟨!![a, b; b, c], fun i => if i = 0 then u else 0, ⟨6, fun _ => 0⟩⟩) fun r =>
    r.1.ret = .success → ∃ k resid l, r.1.res = some (k, resid, l) ∧ resid < 1 / 100 ∧ r.2.m = !![a, b; b, c] := by
  refine (lisEcr_success (demoEKit_exact fun _ v => (.success, v)) 0 ⟨5, false, true, 1 / 100, 0, 0⟩
    ⟨!![a, b; b, c], fun i => if i = 0 then u else 0, ⟨6, fun _ => 0⟩⟩ (by norm_num) (by norm_num)).mono ?_
  intro r h hs
  obtain ⟨k, resid, l, h1, h2, h3, -⟩ := h hs
  exact ⟨k, resid, l, h1, h2, h3⟩

/-- … and it does succeed: `diag(1,2)` from the start `(1,0)`, where `x/0 = 0` keeps the iteration going -/
example : Ok ((lisEcr ltR .success 0 ⟨1, false, true, 1 / 100, 0, 0⟩).run
    (demoEKit fun _ v => (.success, v)) ⟨!![1, 0; 0, 2], fun i => if i = 0 then ![1, 0] else 0, ⟨6, fun _ => 0⟩⟩) fun r =>
    r.1.ret = .success := by
  refine (lisEcr_exact (demoEKit_exact fun _ v => (.success, v)) 0 ⟨1, false, true, 1 / 100, 0, 0⟩
    ⟨!![1, 0; 0, 2], fun i => if i = 0 then ![1, 0] else 0, ⟨6, fun _ => 0⟩⟩ (by norm_num) (by norm_num)).mono ?_
  rintro r ⟨y, t, k, h0, h1, h2, -, -, h3, -⟩
  have hu : eInit (⟨1, false, true, 1 / 100, 0, 0⟩ : EOpts ℝ ℝ) (if True then ![1, 0] else 0 : Fin 2 → ℝ) =
      ![1, 0] := by simp [eInit]
  have hn : nrm ![(1 : ℝ), 0] = 1 := nrm_of_sq (by norm_num) (by norm_num)
  simp only at h0 h2 h3
  rw [hu, hn] at h0
  have hy0 : y 0 = ![1, 0] := by rw [h0]; simp
  have hyne : y 0 ≠ 0 := by rw [hy0]; intro h; have := congrFun h 0; norm_num at this
  have ht0 : t 0 = 1 := by
    rw [(h1 0).2 hyne, hy0]; simp [mulVec, dotProduct, Fin.sum_univ_two]
  have hr0 : nrm ((!![1, 0; 0, 2] : Matrix (Fin 2) (Fin 2) ℝ) *ᵥ y 0 - t 0 • y 0) = 0 := by
    rw [hy0, ht0]; apply nrm_of_sq <;> simp [mulVec, dotProduct, Fin.sum_univ_two]
  have hrk : ∀ j, nrm ((!![1, 0; 0, 2] : Matrix (Fin 2) (Fin 2) ℝ) *ᵥ y j - t j • y j) ≤ 0 := by
    intro j
    induction j with
    | zero => exact hr0.le
    | succ j ih => exact (h2 j).trans ih
  have := le_antisymm (hrk k) (nrm_nonneg _)
  rw [h3]
  refine if_pos ?_
  change nrm ((!![1, 0; 0, 2] : Matrix (Fin 2) (Fin 2) ℝ) *ᵥ y k - t k • y k) / _ < (1 / 100 : ℝ)
  rw [this]
  norm_num

/-- `lis_ecg` on `diag(1,2)` from `(3/5, 4/5)` with the exact solution of the first linear system -/
example (rr : Arr ℝ → Arr ℝ → ℝ × ℝ × ℝ) : Ok ((lisEcg rr ltR .success 0 0 ⟨5, false, true, 1 / 100, 0, 0⟩).run
    (demoEKit fun _ v => (.success, ![v 0, v 1 / 2]))
    ⟨!![1, 0; 0, 2], fun i => if i = 0 then ![3 / 5, 4 / 5] else 0, ⟨6, fun _ => 0⟩⟩) fun r =>
    r.1.ret = .success → ∃ k resid l, r.1.res = some (k, resid, l) ∧ resid < 1 / 100 := by
  have hn : nrm ![(3 / 5 : ℝ), 4 / 5] = 1 := nrm_of_sq (by norm_num) (by norm_num)
  have hK := demoEKit_exact fun _ v => (Err.success, ![v 0, v 1 / 2])
  have hu : unit (demoEKit fun _ v => (Err.success, ![v 0, v 1 / 2])).base ![3 / 5, 4 / 5] = ![3 / 5, 4 / 5] := by
    rw [hK.unit]; exact unit_of_unit hn
  refine (lisEcg_success hK rr 0 0 ⟨5, false, true, 1 / 100, 0, 0⟩
    ⟨!![1, 0; 0, 2], fun i => if i = 0 then ![3 / 5, 4 / 5] else 0, ⟨6, fun _ => 0⟩⟩ (by norm_num) (by norm_num)
    ![3 / 5, 2 / 5] ?_ ?_).mono ?_
  · change (Err.success, _) = _
    simp only [eInit, Bool.false_eq_true, if_false, if_true]
    rw [hu]
    norm_num
  · simp only [eInit, Bool.false_eq_true, if_false, if_true]
    rw [hn]
    funext i
    fin_cases i <;> simp [mulVec, dotProduct, Fin.sum_univ_two, EOpts.sigma]
    norm_num
  · intro r h hs
    obtain ⟨k, resid, l, h1, h2, -⟩ := h hs
    exact ⟨k, resid, l, h1, h2⟩

end Lis
