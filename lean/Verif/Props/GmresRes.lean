import Verif.Props.Gmres
import Verif.Lemmas.GmresRes
import Verif.Lemmas.SolverRes

/-!
# C25: lis_gmres, what the reported residual is the residual of

The residual norm of `lis_gmres` is the last entry of a rotated right-hand side, never computed from a vector.  Over the
real numbers, with the Euclidean inner product and norm, and for a nonsingular `A M⁻¹`, it is the norm of the residual
`b - A x` of the returned `x`.
-/

namespace Lis
open Finset
variable {n : ℕ}

/-- one pass -/
theorem gmresBody_res (tiny : ℝ) (K : Kit ℝ ℝ n) (hK : K.Euclid) (hlin : K.Linear) (B : (Fin n → ℝ) →ₗ[ℝ] (Fin n → ℝ))
    (hBv : ∀ w, B w = K.mv (K.ps w)) (hinj : Function.Injective B) (m : ℕ) (hm : 1 ≤ m) (o : Opts ℝ ℝ) (t : Tols ℝ)
    (ht : 0 ≤ t.tol) (iter : ℕ) (hit : iter < o.maxiter) (p : Arr (Option ℝ) × ℝ) (s : MSt ℝ ℝ n)
    (hp : p.1.size = (m + 1 + 1) * (m + 1 + 2)) (hsz : o.maxiter < s.hist.size)
    (hv0 : s.h (gmV 0) = trueRes K s.h) (hne : s.h (gmV 0) ≠ 0) :
    Ok ((gmresBody (gmReal tiny) m o t iter p).run K s) fun r => r.2.hist.size = s.hist.size ∧ r.2.h hB = s.h hB ∧
      match r.1 with
      | .inl q => q.1.size = (m + 1 + 1) * (m + 1 + 2) ∧ q.2 = K.nrm2 (trueRes K r.2.h) * t.bnrm ∧
          r.2.h (gmV 0) = trueRes K r.2.h ∧ r.2.h (gmV 0) ≠ 0
      | .inr out => out.ret = .success ∧ out.resid = K.nrm2 (trueRes K r.2.h) * t.bnrm := by
  unfold gmresBody
  simp only [vNrm2, vScale]
  have hs0 : (Arr.malloc (m + 1) fun _ => (0 : ℝ)).size = m + 1 := rfl
  refine Ok_norm fun rn hrn => Ok_vop fun w1 hw1 => Ok_aWr (by rw [hs0]; omega) ?_
  simp only [VOp.dst, VOp.val, VNorm.run, gmReal, id] at hrn hw1 ⊢
  have hrn0 : rn ≠ 0 := fun h => hne (Euclid_zero hK (hrn.symm.trans h))
  have hw1' : w1 = (1 / rn) • s.h (gmV 0) := by rw [hw1]; funext x; simp [mul_comm]
  have hw1u : w1 ⬝ᵥ w1 = 1 := by
    rw [hw1', smul_dotProduct, dotProduct_smul, ← Euclid_sq hK, ← hrn]
    simp only [smul_eq_mul]; field_simp
  have hbX : ∀ j, hX ≠ (fun _ => wk 2) j ∧ hX ≠ gmV (j + 1) := fun j => ⟨by simp only [hX, wk]; omega, by simp only [gmV, hX, wk]; omega⟩
  have hbB : ∀ j, hB ≠ (fun _ => wk 2) j ∧ hB ≠ gmV (j + 1) := fun j => ⟨by simp only [hB, wk]; omega, by simp only [gmV, hB, wk]; omega⟩
  refine Ok_pbind ((gmInner_res tiny K hK B hBv hinj m gmV (fun _ => wk 2) gmV_ne
    (fun i j h => by simp only [gmV, wk] at h; omega) (fun i j _ => by simp only [gmV, wk]; omega) (fun x => x * t.bnrm) o t.tol
    (by simpa using ht) (s.h (gmV 0)) (min m (o.maxiter - iter) - 1) iter 0 p.1 _ _ (by omega) (by simp only; omega) hp
    (by simpa using hs0) (fun j hj => by omega) (fun k j _ hj => by omega) ?_ ?_).mono ?_)
  · intro j k hj hk
    obtain rfl : j = 0 := by omega
    obtain rfl : k = 0 := by omega
    simp only
    rw [Function.update_self, hw1u, if_pos trivial]
  · refine ⟨fun _ h => by omega, fun _ h => by omega, fun _ h => by omega, ?_⟩
    simp only [range_zero, sum_empty, zero_add, gp, Arr.set_get_self]
    rw [Function.update_self, hw1', smul_smul, mul_one_div_cancel hrn0, one_smul]
  rintro ⟨⟨a, sa, nrm, ii⟩, s1⟩ ⟨e1, e2, e3, -, e4, e5, e6, e7, e8, e9, e10, e11, -⟩
  simp only at e1 e2 e3 e4 e5 e6 e7 e8 e9 e10 e11
  have hX1 : s1.h hX = s.h hX := by rw [e7 _ hbX, Function.update_of_ne (by decide)]
  have hB1 : s1.h hB = s.h hB := by rw [e7 _ hbB, Function.update_of_ne (by decide)]
  refine Ok_pbind (((gmSolve_ok K m ii (by omega) a s1 e2 e6 sa e3).conj
    (gmSolve_res K m ii (by omega) a s1 e2 e6 (fun j hj => e8.dia j (by omega)) sa e3)).mono ?_)
  rintro ⟨y, s2⟩ ⟨⟨f1, f2⟩, f3, f4⟩
  simp only at f1 f2 f3 f4
  subst f1
  refine Ok_pbind (((gmUpdate_ok K ii y (by omega) s2).conj (gmUpdate_res K ii y (by omega) s2)).mono ?_)
  rintro ⟨_, s3⟩ ⟨⟨g1, g2⟩, g3⟩
  simp only at g1 g2 g3
  have hB3 : s3.h hB = s.h hB := (g2 _ (by decide) (by decide) (by decide)).trans hB1
  -- the residual of the new x
  have hres : trueRes K s3.h = sa.get (ii + 1) • gp (gc m a) (gs m a) (fun k => s2.h (gmV k)) (ii + 1) := by
    have hsum := gm_solution (i := ii) (fun j hj => e8.col j (by omega)) f4
    have h1 := e8.res
    rw [← hsum] at h1
    have h2 : s2.h hX + K.ps (∑ j ∈ range (ii + 1), y.get j • s2.h (gmV j)) =
        fun i => s2.h hX i + 1 * K.ps (∑ j ∈ range (ii + 1), y.get j • s2.h (gmV j)) i := by funext i; simp
    have h3 : trueRes K s3.h = s.h (gmV 0) - B (∑ j ∈ range (ii + 1), y.get j • s2.h (gmV j)) := by
      rw [hv0]
      unfold trueRes
      rw [hB3, g3, h2, hlin, hBv, hX1]
      funext i
      simp only [one_mul, Pi.sub_apply]
      ring
    rw [h3, map_sum]
    simp only [map_smul]
    rw [h1, add_sub_cancel_left]
  have hnrm : nrm = K.nrm2 (trueRes K s3.h) * t.bnrm := by
    rw [e10, hres, Euclid_smul hK]
    rcases e9 with h | h
    · rw [h]; simp
    · rw [hK.nrm2, gp_unit h fun j hj => e8.rot j hj, Real.sqrt_one, mul_one]
  refine Ok_pif (fun hle => Ok_ret ⟨by simp only; rw [g1, e1], hB3, rfl, hnrm⟩) fun hle => ?_
  have hsa : sa.get (ii + 1) ≠ 0 := by
    intro h
    apply hle
    rw [e10, h]; simpa using ht
  have hor : Orth (fun k => s2.h (gmV k)) (ii + 1) := e9.resolve_left hsa
  refine Ok_pbind (((gmUnrot_ok K m a s3 e2 (ii + 1) y f2 (by omega) e5).conj
    (gmUnrot_res K m a s3 e2 (fun k => s2.h (gmV k)) (ii + 1) y f2 (by omega) e5)).mono ?_)
  rintro ⟨y2, s4⟩ ⟨⟨k1, k2⟩, k3, k4⟩
  simp only at k1 k2 k3 k4
  subst k1
  refine Ok_pbind (((gmRestart_ok K (ii + 1) y2 (by omega) s4).conj (gmRestart_res K (ii + 1) y2 (by omega) s4)).mono ?_)
  rintro ⟨_, s5⟩ ⟨⟨l1, l2⟩, l3⟩
  simp only at l1 l2 l3
  have hX5 : s5.h hX = s4.h hX := l2 _ (by decide)
  have hB5 : s5.h hB = s4.h hB := l2 _ (by decide)
  have ht5 : trueRes K s5.h = trueRes K s4.h := by unfold trueRes; rw [hX5, hB5]
  have hv5 : s5.h (gmV 0) = trueRes K s5.h := by
    rw [l3, ht5, hres, ← f3 (ii + 1) (by omega), ← k4]
    refine sum_congr rfl fun j _ => ?_
    rw [g2 (gmV j) (by simp only [gmV, hX, wk]; omega) (by simp only [gmV, wk]; omega) (by simp only [gmV, wk]; omega)]
  refine Ok_ret ⟨by simp only; rw [l1, g1, e1], hB5.trans hB3, e2, ?_, hv5, ?_⟩
  · simp only
    rw [hnrm, ht5]
  · simp only
    rw [hv5, ht5, hres]
    intro h
    have h1 := gp_unit hor fun j hj => e8.rot j hj
    rcases smul_eq_zero.1 h with h | h
    · exact hsa h
    · rw [h] at h1; simp at h1

/-- **C25: the residual reported by `lis_gmres`.**  For a linear, nonsingular `A M⁻¹`, a tolerance `≥ 0` and restart
`m ≥ 1`: unless it stopped before the first iteration or `maxiter = 0`, the reported residual is `‖b - A x‖₂` for the
returned `x`, times the reciprocal of the reference norm. -/
theorem lisGmres_residual (tiny : ℝ) (m : ℕ) (hm : 1 ≤ m) (junk : ℝ) (K : Kit ℝ ℝ n) (hK : K.Euclid) (hK1 : K.nrm1 0 = 0)
    (hlin : K.Linear) (hps : K.PsLinear) (hinj : ∀ x, K.mv (K.ps x) = 0 → x = 0) (o : Opts ℝ ℝ) (s : MSt ℝ ℝ n)
    (hz : o.initZero = true → s.h hX = 0) (htol : 0 ≤ tolOf K o s.h) (hsz : o.maxiter < s.hist.size) :
    Ok ((lisGmres (gmReal tiny) m junk o).run K s) fun r =>
      (r.1.ret = .success ∧ r.1.resid = initialResOf K o s.h ∧ initialResOf K o s.h ≤ |o.tol| ∧
        r0Of K o s.h = trueRes K r.2.h) ∨
      r.1.resid = K.nrm2 (trueRes K r.2.h) * bnrmOf K o s.h ∨
      (r.1.ret = .maxiter ∧ r.1.resid = junk ∧ o.maxiter = 0) := by
  have hmm : max 1 m = m := by omega
  set B : (Fin n → ℝ) →ₗ[ℝ] (Fin n → ℝ) := (linMap K.mv hlin).comp (linMap K.ps hps) with hBdef
  have hBv : ∀ w, B w = K.mv (K.ps w) := fun _ => rfl
  have hBi : Function.Injective B := by
    rw [injective_iff_map_eq_zero]
    exact fun x hx => hinj x hx
  unfold lisGmres
  rw [hmm]
  simp only [mMatvec, vXpay, mPsolve]
  refine Ok_vop fun w1 _ => Ok_vop fun w2 _ => Ok_vop fun w3 _ => ?_
  simp only [VOp.dst]
  generalize hh : Function.update (Function.update (Function.update s.h (wk 2) w1) (wk 2) w2) (gmV 0) w3 = h'
  have hX' : h' hX = s.h hX := by
    rw [← hh, Function.update_of_ne (by decide), Function.update_of_ne (by decide), Function.update_of_ne (by decide)]
  have hB' : h' hB = s.h hB := by
    rw [← hh, Function.update_of_ne (by decide), Function.update_of_ne (by decide), Function.update_of_ne (by decide)]
  have er : r0Of K o h' = r0Of K o s.h := by unfold r0Of; rw [hX', hB']
  have ei : initialResOf K o h' = initialResOf K o s.h := by unfold initialResOf bnrmOf refNorm; rw [er, hB']
  have et : tolOf K o h' = tolOf K o s.h := by unfold tolOf; rw [hB']
  have eb : bnrmOf K o h' = bnrmOf K o s.h := by unfold bnrmOf refNorm; rw [er, hB']
  have hr0 : r0Of K o s.h = trueRes K s.h := r0Of_eq hlin hz
  have hupd : ∀ v, trueRes K (Function.update h' (gmV 0) v) = trueRes K s.h := by
    intro v
    unfold trueRes
    rw [Function.update_of_ne (show hB ≠ gmV 0 by decide), Function.update_of_ne (show hX ≠ gmV 0 by decide), hX', hB']
  simp only [Prog.run_bind, run_initialResidual K o (gmV 0) (by decide) (by decide), Option.bind_some]
  by_cases hinit : initialResOf K o s.h ≤ RealOps.fabs o.tol
  · rw [if_pos (by rw [ei]; exact hinit)]
    refine Ok_ret (.inl ⟨rfl, by rw [ei], hinit, ?_⟩)
    rw [hr0, ← hupd (r0Of K o h')]
  · rw [if_neg (by rw [ei]; exact hinit), et, eb, er]
    simp only
    have hne0 : r0Of K o s.h ≠ 0 := by
      intro h
      apply hinit
      unfold initialResOf
      have h2 : K.nrm2 0 = 0 := by rw [hK.nrm2]; simp
      rw [h, hK1, h2]
      cases o.conv <;> simp only [zero_mul] <;> exact abs_nonneg _
    refine Ok_pbind (Ok_forIter (lo := 0) (fun k (p : Arr (Option ℝ) × ℝ) s' => p.1.size = (m + 1 + 1) * (m + 1 + 2) ∧
      s'.hist.size = s.hist.size ∧ s'.h hB = s.h hB ∧ s'.h (gmV 0) = trueRes K s'.h ∧ s'.h (gmV 0) ≠ 0 ∧
      ((k = 0 ∧ p.2 = junk) ∨ p.2 = K.nrm2 (trueRes K s'.h) * bnrmOf K o s.h)) _ 0 _ _
      ⟨rfl, rfl, (Function.update_of_ne (show hB ≠ gmV 0 by decide) (r0Of K o s.h) h').trans hB', ?_, ?_, .inl ⟨rfl, rfl⟩⟩ ?_ ?_)
    · simp only
      rw [Function.update_self, hupd, hr0]
    · simp only
      rw [Function.update_self]; exact hne0
    · rintro k p s' - hk ⟨hp, hs, hb, hv, hn, -⟩
      have hlt := gm_pass hm (show k < (o.maxiter + m - 1) / m by omega)
      refine (gmresBody_res tiny K hK hlin B hBv hBi m hm o ⟨bnrmOf K o s.h, tolOf K o s.h⟩ htol (k * m) hlt p s' hp
        (by omega) hv hn).mono ?_
      rintro ⟨q | out, s2⟩ ⟨h1, h2, h⟩
      · simp only at h h1 h2 ⊢
        exact ⟨h.1, h1.trans hs, h2.trans hb, h.2.2.1, h.2.2.2, .inr h.2.1⟩
      · simp only at h
        exact Ok_ret (.inr (.inl h.2))
    · rintro p s' ⟨-, -, -, -, -, h⟩
      refine Ok_ret ?_
      simp only
      rcases h with ⟨h1, h2⟩ | h
      · refine .inr (.inr ⟨trivial, h2, ?_⟩)
        have := gm_last (M := o.maxiter) hm
        rw [Nat.zero_add] at h1
        rw [h1] at this
        omega
      · exact .inr (.inl h)

/-- one pass of `lis_fgmres` -/
theorem fgmresBody_res (tiny : ℝ) (K : Kit ℝ ℝ n) (hK : K.Euclid) (hlin : K.Linear) (hps : K.PsLinear)
    (B : (Fin n → ℝ) →ₗ[ℝ] (Fin n → ℝ))
    (hBv : ∀ w, B w = K.mv (K.ps w)) (hinj : Function.Injective B) (m : ℕ) (hm : 1 ≤ m) (o : Opts ℝ ℝ) (tol : ℝ)
    (ht : 0 ≤ tol) (iter : ℕ) (hit : iter < o.maxiter) (p : Arr (Option ℝ) × ℝ × ℝ × ℝ) (s : MSt ℝ ℝ n)
    (hp : p.1.size = (m + 1 + 1) * (m + 1 + 2)) (hsz : o.maxiter < s.hist.size)
    (hv0 : s.h (fgV m 0) = trueRes K s.h) (hne : s.h (fgV m 0) ≠ 0) (hrn : p.2.1 = K.nrm2 (s.h (fgV m 0)))
    (hbn : p.2.2.1 = 1 / p.2.1) :
    Ok ((fgmresBody (gmReal tiny) m hm o tol iter p).run K s) fun r => r.2.hist.size = s.hist.size ∧ r.2.h hB = s.h hB ∧
      match r.1 with
      | .inl q => q.1.size = (m + 1 + 1) * (m + 1 + 2) ∧ q.2.2.2 = K.nrm2 (trueRes K r.2.h) ∧
          r.2.h (fgV m 0) = trueRes K r.2.h ∧ r.2.h (fgV m 0) ≠ 0 ∧ q.2.1 = K.nrm2 (r.2.h (fgV m 0)) ∧ q.2.2.1 = 1 / q.2.1
      | .inr out => out.ret = .success ∧ out.resid = K.nrm2 (trueRes K r.2.h) := by
  obtain ⟨pa, rn, bn, nr⟩ := p
  simp only at hp hrn hbn
  unfold fgmresBody
  simp only [vNrm2, vScale, mMatvec, vXpay]
  have hs0 : (Arr.malloc (m + 1) fun _ => (0 : ℝ)).size = m + 1 := rfl
  have hbv : hB ≠ fgV m 0 := by simp only [hB, fgV, wk]; omega
  have hxv : hX ≠ fgV m 0 := by simp only [hX, fgV, wk]; omega
  refine Ok_vop fun w1 hw1 => Ok_aWr (by rw [hs0]; omega) ?_
  simp only [VOp.dst, VOp.val, gmReal, id] at hw1 ⊢
  have hrn0 : rn ≠ 0 := fun h => hne (Euclid_zero hK (hrn.symm.trans h))
  have hw1' : w1 = (1 / rn) • s.h (fgV m 0) := by rw [hw1, hbn]; funext x; simp [mul_comm]
  have hw1u : w1 ⬝ᵥ w1 = 1 := by
    rw [hw1', smul_dotProduct, dotProduct_smul, ← Euclid_sq hK, ← hrn]
    simp only [smul_eq_mul]; field_simp
  have hbX : ∀ j, hX ≠ fgZ j ∧ hX ≠ fgV m (j + 1) := fun j => ⟨by simp only [hX, fgZ, wk]; omega, by simp only [fgV, hX, wk]; omega⟩
  have hbB : ∀ j, hB ≠ fgZ j ∧ hB ≠ fgV m (j + 1) := fun j => ⟨by simp only [hB, fgZ, wk]; omega, by simp only [fgV, hB, wk]; omega⟩
  refine Ok_pbind ((gmInner_res tiny K hK B hBv hinj m (fgV m) fgZ (fgV_ne m hm)
    (fun i j h => by simp only [fgV, wk] at h; omega) (fun i j _ => by simp only [fgV, fgZ, wk]; omega) id o tol
    (by simpa using ht) (s.h (fgV m 0)) (min m (o.maxiter - iter) - 1) iter 0 pa _ _ (by omega) (by simp only; omega) hp
    (by simpa using hs0) (fun j hj => by omega) (fun k j _ hj => by omega) ?_ ?_).mono ?_)
  · intro j k hj hk
    obtain rfl : j = 0 := by omega
    obtain rfl : k = 0 := by omega
    simp only
    rw [Function.update_self, hw1u, if_pos trivial]
  · refine ⟨fun _ h => by omega, fun _ h => by omega, fun _ h => by omega, ?_⟩
    simp only [range_zero, sum_empty, zero_add, gp, Arr.set_get_self]
    rw [Function.update_self, hw1', smul_smul, mul_one_div_cancel hrn0, one_smul]
  rintro ⟨⟨a, sa, nrm, ii⟩, s1⟩ ⟨e1, e2, e3, -, e4, e5, e6, e7, e8, e9, e10, e11, e12⟩
  simp only [id] at e1 e2 e3 e4 e5 e6 e7 e8 e9 e10 e11 e12
  have hX1 : s1.h hX = s.h hX := by rw [e7 _ hbX, Function.update_of_ne hxv]
  have hB1 : s1.h hB = s.h hB := by rw [e7 _ hbB, Function.update_of_ne hbv]
  refine Ok_pbind (((gmSolve_ok K m ii (by omega) a s1 e2 e6 sa e3).conj
    (gmSolve_res K m ii (by omega) a s1 e2 e6 (fun j hj => e8.dia j (by omega)) sa e3)).mono ?_)
  rintro ⟨y, s2⟩ ⟨⟨f1, f2⟩, f3, f4⟩
  simp only at f1 f2 f3 f4
  subst f1
  refine Ok_pbind (((fgUpdate_ok K ii y (by omega) s2).conj (fgUpdate_res K ii y (by omega) s2)).mono ?_)
  rintro ⟨_, s3⟩ ⟨⟨g1, g2⟩, g3⟩
  simp only at g1 g2 g3
  have hB3 : s3.h hB = s.h hB := (g2 _ (by decide)).trans hB1
  have hz : ∑ j ∈ range (ii + 1), y.get j • s2.h (fgZ j) = K.ps (∑ j ∈ range (ii + 1), y.get j • s2.h (fgV m j)) := by
    have : K.ps (∑ j ∈ range (ii + 1), y.get j • s2.h (fgV m j)) =
        linMap K.ps hps (∑ j ∈ range (ii + 1), y.get j • s2.h (fgV m j)) := rfl
    rw [this, map_sum]
    refine sum_congr rfl fun j hj => ?_
    rw [map_smul, e12 (fun i j h => by simp only [fgZ, wk] at h; omega) j (by have := mem_range.1 hj; omega) (fun h => by omega)]
    rfl
  -- the residual of the new x
  have hres : trueRes K s3.h = sa.get (ii + 1) • gp (gc m a) (gs m a) (fun k => s2.h (fgV m k)) (ii + 1) := by
    have hsum := gm_solution (i := ii) (fun j hj => e8.col j (by omega)) f4
    have h1 := e8.res
    rw [← hsum] at h1
    have h2 : s2.h hX + K.ps (∑ j ∈ range (ii + 1), y.get j • s2.h (fgV m j)) =
        fun i => s2.h hX i + 1 * K.ps (∑ j ∈ range (ii + 1), y.get j • s2.h (fgV m j)) i := by funext i; simp
    have h3 : trueRes K s3.h = s.h (fgV m 0) - B (∑ j ∈ range (ii + 1), y.get j • s2.h (fgV m j)) := by
      rw [hv0]
      unfold trueRes
      rw [hB3, g3, hz, h2, hlin, hBv, hX1]
      funext i
      simp only [one_mul, Pi.sub_apply]
      ring
    rw [h3, map_sum]
    simp only [map_smul]
    rw [h1, add_sub_cancel_left]
  have hnrm : nrm = K.nrm2 (trueRes K s3.h) := by
    rw [e10, hres, Euclid_smul hK]
    rcases e9 with h | h
    · rw [h]; simp
    · rw [hK.nrm2, gp_unit h fun j hj => e8.rot j hj, Real.sqrt_one, mul_one]
  refine Ok_pif (fun hle => Ok_ret ⟨by simp only; rw [g1, e1], hB3, rfl, hnrm⟩) fun hle => ?_
  have hsa : sa.get (ii + 1) ≠ 0 := by
    intro h
    apply hle
    rw [e10, h]; simpa using ht
  have hor : Orth (fun k => s2.h (fgV m k)) (ii + 1) := e9.resolve_left hsa
  refine Ok_vop fun w4 hw4 => Ok_vop fun w5 hw5 => Ok_norm fun rn' hrn' => ?_
  simp only [VOp.dst, VOp.val, VNorm.run, Function.update_self] at hw4 hw5 hrn'
  have hw5' : w5 = trueRes K s3.h := by
    rw [hw5, hw4]
    funext i
    rw [Function.update_of_ne hbv]
    unfold trueRes
    ring
  have ht5 : trueRes K (Function.update (Function.update s3.h (fgV m 0) w4) (fgV m 0) w5) = trueRes K s3.h := by
    unfold trueRes
    rw [Function.update_of_ne hbv, Function.update_of_ne hbv, Function.update_of_ne hxv, Function.update_of_ne hxv]
  refine Ok_ret ⟨by simp only; rw [g1, e1], ?_, e2, ?_, ?_, ?_, ?_, rfl⟩
  · simp only [VOp.dst]; rw [Function.update_of_ne hbv, Function.update_of_ne hbv, hB3]
  · simp only [VOp.dst]; rw [ht5, hnrm]
  · simp only [VOp.dst]; rw [ht5, Function.update_self, hw5']
  · simp only [VOp.dst]
    rw [Function.update_self, hw5', hres]
    intro h
    have h1 := gp_unit hor fun j hj => e8.rot j hj
    rcases smul_eq_zero.1 h with h | h
    · exact hsa h
    · rw [h] at h1; simp at h1
  · simp only [VOp.dst]; rw [hrn', Function.update_self]

/-- **C25: the residual reported by `lis_fgmres`** is not divided by the reference norm: it is `‖b - A x‖₂` for the
returned `x`.  For a linear, nonsingular `A M⁻¹`, restart `m ≥ 1`, a tolerance `≥ 0` and a reference norm that is
`‖r0‖₂` (with another one the first basis vector is not a unit vector). -/
theorem lisFgmres_residual (tiny : ℝ) (m : ℕ) (hm : 1 ≤ m) (junk : ℝ) (K : Kit ℝ ℝ n) (hK : K.Euclid)
    (hlin : K.Linear) (hps : K.PsLinear) (hinj : ∀ x, K.mv (K.ps x) = 0 → x = 0) (o : Opts ℝ ℝ) (s : MSt ℝ ℝ n)
    (hcv : o.conv = .nrm2R ∨ (o.conv = .nrm2B ∧ r0Of K o s.h = s.h hB))
    (hz : o.initZero = true → s.h hX = 0) (htol : 0 ≤ o.tol) (hsz : o.maxiter < s.hist.size) :
    Ok ((lisFgmres (gmReal tiny) m hm junk o).run K s) fun r =>
      (r.1.ret = .success ∧ r.1.resid = initialResOf K o s.h ∧ initialResOf K o s.h ≤ |o.tol| ∧
        r0Of K o s.h = trueRes K r.2.h) ∨
      r.1.resid = K.nrm2 (trueRes K r.2.h) ∨
      (r.1.ret = .maxiter ∧ r.1.resid = junk ∧ o.maxiter = 0) := by
  set B : (Fin n → ℝ) →ₗ[ℝ] (Fin n → ℝ) := (linMap K.mv hlin).comp (linMap K.ps hps) with hBdef
  have hBv : ∀ w, B w = K.mv (K.ps w) := fun _ => rfl
  have hBi : Function.Injective B := by
    rw [injective_iff_map_eq_zero]
    exact fun x hx => hinj x hx
  unfold lisFgmres
  have hbv : hB ≠ fgV m 0 := by simp only [hB, fgV, wk]; omega
  have hxv : hX ≠ fgV m 0 := by simp only [hX, fgV, wk]; omega
  have hr0 : r0Of K o s.h = trueRes K s.h := r0Of_eq hlin hz
  have hupd : ∀ v, trueRes K (Function.update s.h (fgV m 0) v) = trueRes K s.h := by
    intro v
    unfold trueRes
    rw [Function.update_of_ne hbv, Function.update_of_ne hxv]
  have href : refNorm K o s.h = K.nrm2 (r0Of K o s.h) := by
    unfold refNorm
    rcases hcv with h | ⟨h, h2⟩ <;> rw [h]
    rw [h2]
  have htl : tolOf K o s.h = o.tol := by
    unfold tolOf
    rcases hcv with h | ⟨h, h2⟩ <;> rw [h]
  simp only [Prog.run_bind, run_initialResidual K o (fgV m 0) _ hbv, Option.bind_some]
  by_cases hinit : initialResOf K o s.h ≤ RealOps.fabs o.tol
  · rw [if_pos hinit]
    exact Ok_ret (.inl ⟨rfl, rfl, hinit, hr0.trans (hupd _).symm⟩)
  · rw [if_neg hinit, htl]
    simp only
    have hne0 : r0Of K o s.h ≠ 0 := by
      intro h
      apply hinit
      unfold initialResOf
      have h2 : K.nrm2 0 = 0 := by rw [hK.nrm2]; simp
      rw [h, h2]
      rcases hcv with h | ⟨h, -⟩ <;> rw [h] <;> simp only [zero_mul] <;> exact abs_nonneg _
    have hn0 : K.nrm2 (r0Of K o s.h) ≠ 0 := fun h => hne0 (Euclid_zero hK h)
    have hbn : bnrmOf K o s.h = 1 / K.nrm2 (r0Of K o s.h) := by
      unfold bnrmOf; rw [href, if_neg hn0]
    refine Ok_pbind (Ok_forIter (lo := 0) (fun k (p : Arr (Option ℝ) × ℝ × ℝ × ℝ) s' => p.1.size = (m + 1 + 1) * (m + 1 + 2) ∧
      s'.hist.size = s.hist.size ∧ s'.h hB = s.h hB ∧ s'.h (fgV m 0) = trueRes K s'.h ∧ s'.h (fgV m 0) ≠ 0 ∧
      (p.2.1 = K.nrm2 (s'.h (fgV m 0)) ∧ p.2.2.1 = 1 / p.2.1) ∧
      ((k = 0 ∧ p.2.2.2 = junk) ∨ p.2.2.2 = K.nrm2 (trueRes K s'.h))) _ 0 _ _
      ⟨rfl, rfl, Function.update_of_ne hbv (r0Of K o s.h) s.h, ?_, ?_, ⟨?_, ?_⟩, .inl ⟨rfl, rfl⟩⟩ ?_ ?_)
    · simp only
      rw [Function.update_self, hupd, hr0]
    · simp only
      rw [Function.update_self]; exact hne0
    · simp only
      rw [Function.update_self, hbn, one_div_one_div]
    · simp only
      rw [one_div_one_div]
    · rintro k p s' - hk ⟨hp, hs, hb, hv, hn, ⟨h1, h2⟩, -⟩
      have hlt := gm_pass hm (show k < (o.maxiter + m - 1) / m by omega)
      refine (fgmresBody_res tiny K hK hlin hps B hBv hBi m hm o o.tol htol (k * m) hlt p s' hp
        (by omega) hv hn h1 h2).mono ?_
      rintro ⟨q | out, s2⟩ ⟨h1, h2, h⟩
      · simp only at h h1 h2 ⊢
        exact ⟨h.1, h1.trans hs, h2.trans hb, h.2.2.1, h.2.2.2.1, h.2.2.2.2, .inr h.2.1⟩
      · simp only at h
        exact Ok_ret (.inr (.inl h.2))
    · rintro p s' ⟨-, -, -, -, -, -, h⟩
      refine Ok_ret ?_
      simp only
      rcases h with ⟨h1, h2⟩ | h
      · refine .inr (.inr ⟨trivial, h2, ?_⟩)
        have := gm_last (M := o.maxiter) hm
        rw [Nat.zero_add] at h1
        rw [h1] at this
        omega
      · exact .inr (.inl h)

end Lis
