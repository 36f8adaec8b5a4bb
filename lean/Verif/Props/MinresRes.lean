import Verif.Props.Minres
import Verif.Lemmas.GmresRes

/-!
# C25: lis_minres, what the reported residual is the residual of

Over the reals, with the Euclidean inner product, for a symmetric nonsingular `C = M⁻¹ A`: the Lanczos vectors are
orthonormal, and the number reported is `‖M⁻¹(b - A x)‖ / ‖M⁻¹(b - A x0)‖` for the returned `x`.
-/

namespace Lis
open Finset
variable {n : ℕ}

/-- one index back, `d` before the beginning -/
def pd {α : Type} (d : α) (f : ℕ → α) : ℕ → α
  | 0 => d
  | k + 1 => f k

theorem pd_congr {α : Type} {d : α} {f g : ℕ → α} {k : ℕ} (h : ∀ j, j < k → f j = g j) : pd d f k = pd d g k := by
  cases k with
  | zero => rfl
  | succ k => exact h k (by omega)

theorem min_v {c s : ℕ → ℝ} {V : ℕ → Fin n → ℝ} (k : ℕ) (h : ∀ j, j < k → c j * c j + s j * s j = 1) :
    V k = pd 0 s k • pd 0 (gq c s V) k + pd 1 c k • gp c s V k := by
  cases k with
  | zero => simp [pd, gp]
  | succ k => exact gv_split (h k (by omega))

theorem min_vp {c s : ℕ → ℝ} {V : ℕ → Fin n → ℝ} (k : ℕ) (h : ∀ j, j < k → c j * c j + s j * s j = 1) :
    pd 0 V k = pd 0 (pd 0 s) k • pd 0 (pd 0 (gq c s V)) k +
      pd 1 (pd 1 c) k • (pd 1 c k • pd 0 (gq c s V) k - pd 0 s k • gp c s V k) := by
  cases k with
  | zero => simp [pd]
  | succ k =>
    simp only [pd]
    rw [← gp_split (h k (by omega))]
    exact min_v k fun j hj => h j (by omega)

/-- the state before iteration `k+1`: `V` are the Lanczos vectors, `c`, `s` the rotations, `bt` the off-diagonal -/
structure MinI (K : Kit ℝ ℝ n) (C : (Fin n → ℝ) →ₗ[ℝ] (Fin n → ℝ)) (k : ℕ) (V : ℕ → Fin n → ℝ) (c s al bt : ℕ → ℝ)
    (st : MinSt ℝ ℝ) (h : MHeap ℝ n) : Prop where
  g2 : st.gamma2 = pd 1 c k
  g1 : st.gamma1 = pd 1 (pd 1 c) k
  s2 : st.sigma2 = pd 0 s k
  s1 : st.sigma1 = pd 0 (pd 0 s) k
  b2 : st.beta2 = bt k
  b0 : bt k ≠ 0
  v2 : h (wk 1) = bt k • V k
  v1 : h (wk 0) = pd 0 V k
  orth : Orth V k
  lan : ∀ j, j < k → C (V j) = bt (j + 1) • V (j + 1) + al j • V j + bt j • pd 0 V j
  rot : ∀ j, j < k → c j * c j + s j * s j = 1
  w1 : C (h (wk 5)) = pd 0 (gq c s V) k
  w0 : C (h (wk 4)) = pd 0 (pd 0 (gq c s V)) k
  wp : ∀ w : Fin n → ℝ, (∀ j, j < k → w ⬝ᵥ V j = 0) → w ⬝ᵥ h (wk 5) = 0 ∧ w ⬝ᵥ h (wk 4) = 0
  res : K.ps (trueRes K h) = st.eta • gp c s V k
  eta : |st.eta| = st.reuc

/-- the new Lanczos vector is orthogonal to the others -/
theorem lanczos_perp {C : (Fin n → ℝ) →ₗ[ℝ] (Fin n → ℝ)} (hsym : ∀ x y, C x ⬝ᵥ y = x ⬝ᵥ C y) {V : ℕ → Fin n → ℝ}
    {al bt : ℕ → ℝ} {k : ℕ} (ho : Orth V k)
    (hl : ∀ j, j < k → C (V j) = bt (j + 1) • V (j + 1) + al j • V j + bt j • pd 0 V j) (j : ℕ) (hj : j ≤ k) :
    (C (V k) - (V k ⬝ᵥ C (V k)) • V k - bt k • pd 0 V k) ⬝ᵥ V j = 0 := by
  rw [sub_dotProduct, sub_dotProduct, smul_dotProduct, smul_dotProduct, ho k j le_rfl hj]
  by_cases he : j = k
  · subst he
    rw [if_pos rfl, hsym]
    cases j with
    | zero => simp [pd]
    | succ j =>
      simp only [pd]
      rw [ho j (j + 1) (by omega) le_rfl, if_neg (by omega)]
      simp
  · rw [if_neg (by omega)]
    obtain ⟨k, rfl⟩ : ∃ k', k = k' + 1 := ⟨k - 1, by omega⟩
    simp only [pd]
    rw [hsym, hl j (by omega), dotProduct_add, dotProduct_add, dotProduct_smul, dotProduct_smul, dotProduct_smul,
      ho (k + 1) (j + 1) le_rfl (by omega), ho (k + 1) j le_rfl (by omega), if_neg (show k + 1 ≠ j by omega),
      ho k j (by omega) (by omega)]
    have hp : V (k + 1) ⬝ᵥ pd 0 V j = 0 := by
      cases j with
      | zero => simp [pd]
      | succ j =>
        simp only [pd]
        rw [ho (k + 1) j le_rfl (by omega), if_neg (by omega)]
    rw [hp]
    by_cases hjk : j = k
    · subst hjk; simp
    · rw [if_neg (by omega), if_neg (by omega)]; simp

macro "min_heap'" : tactic => `(tactic| simp only [Function.update_self, Function.update_of_ne (show hB ≠ hX by decide),
  Function.update_of_ne (show hB ≠ wk 0 by decide), Function.update_of_ne (show hB ≠ wk 1 by decide),
  Function.update_of_ne (show hB ≠ wk 2 by decide), Function.update_of_ne (show hB ≠ wk 3 by decide),
  Function.update_of_ne (show hB ≠ wk 4 by decide), Function.update_of_ne (show hB ≠ wk 5 by decide),
  Function.update_of_ne (show hB ≠ wk 6 by decide), Function.update_of_ne (show hX ≠ wk 0 by decide),
  Function.update_of_ne (show hX ≠ wk 1 by decide), Function.update_of_ne (show hX ≠ wk 4 by decide),
  Function.update_of_ne (show hX ≠ wk 5 by decide), Function.update_of_ne (show wk 0 ≠ wk 1 by decide),
  Function.update_of_ne (show wk 0 ≠ wk 4 by decide), Function.update_of_ne (show wk 0 ≠ wk 5 by decide),
  Function.update_of_ne (show wk 1 ≠ wk 4 by decide), Function.update_of_ne (show wk 1 ≠ wk 5 by decide),
  Function.update_of_ne (show wk 4 ≠ wk 5 by decide)])

macro "min_heap" "at" h:ident : tactic => `(tactic| simp only [Function.update_self, Function.update_of_ne (show wk 1 ≠ hX by decide),
  Function.update_of_ne (show wk 1 ≠ wk 6 by decide), Function.update_of_ne (show wk 1 ≠ wk 3 by decide),
  Function.update_of_ne (show wk 1 ≠ wk 2 by decide), Function.update_of_ne (show wk 3 ≠ wk 0 by decide),
  Function.update_of_ne (show wk 3 ≠ hX by decide), Function.update_of_ne (show wk 3 ≠ wk 6 by decide),
  Function.update_of_ne (show wk 5 ≠ wk 0 by decide), Function.update_of_ne (show wk 5 ≠ wk 1 by decide),
  Function.update_of_ne (show wk 5 ≠ hX by decide), Function.update_of_ne (show wk 5 ≠ wk 6 by decide),
  Function.update_of_ne (show wk 5 ≠ wk 3 by decide), Function.update_of_ne (show wk 5 ≠ wk 2 by decide),
  Function.update_of_ne (show wk 6 ≠ wk 0 by decide), Function.update_of_ne (show wk 6 ≠ wk 1 by decide),
  Function.update_of_ne (show wk 6 ≠ wk 4 by decide), Function.update_of_ne (show wk 6 ≠ hX by decide)] at $h:ident)

/-- one iteration -/
theorem minresBody_res (tiny : ℝ) (K : Kit ℝ ℝ n) (hK : K.Euclid) (hlin : K.Linear) (hps : K.PsLinear)
    (C : (Fin n → ℝ) →ₗ[ℝ] (Fin n → ℝ)) (hC : ∀ w, C w = K.ps (K.mv w)) (hinj : Function.Injective C)
    (hsym : ∀ x y, C x ⬝ᵥ y = x ⬝ᵥ C y) (o : Opts ℝ ℝ) (ht : 0 ≤ o.tol) (r0 : ℝ) (k : ℕ) (p : MinSt ℝ ℝ × ℝ)
    (s : MSt ℝ ℝ n) (hi : k + 1 < s.hist.size) (hI : ∃ V c sn al bt, MinI K C k V c sn al bt p.1 s.h) :
    Ok ((minresBody (gmReal tiny) o r0 (k + 1) p).run K s) fun r => r.2.hist.size = s.hist.size ∧
      match r.1 with
      | .inl q => (∃ V c sn al bt, MinI K C (k + 1) V c sn al bt q.1 r.2.h) ∧ q.2 = K.nrm2 (K.ps (trueRes K r.2.h)) / r0
      | .inr out => out.resid = K.nrm2 (K.ps (trueRes K r.2.h)) / r0 := by
  obtain ⟨V, c, sn, al, bt, hI⟩ := hI
  obtain ⟨⟨beta2, gamma1, gamma2, sigma1, sigma2, eta, reuc⟩, nr⟩ := p
  have ig2 := hI.g2
  have ig1 := hI.g1
  have is2 := hI.s2
  have is1 := hI.s1
  have ib2 := hI.b2
  have ieta := hI.eta
  have ires := hI.res
  simp only at ig2 ig1 is2 is1 ib2 ieta ires
  unfold minresBody
  simp only [vScale, mMatvec, mPsolve, vDot, vAxpy, vNrm2, vAxpyz, vCopy, gmReal, id]
  refine Ok_vop fun w1 h1 => Ok_vop fun w2 h2 => Ok_vop fun w3 h3 => Ok_red fun alpha halpha => Ok_vop fun w4 h4 =>
    Ok_vop fun w5 h5 => Ok_norm fun b3 hb3 => ?_
  simp only [VOp.dst, VOp.val, VRed.run, VNorm.run, Function.update_self, Function.update_of_ne (show wk 1 ≠ wk 3 by decide),
    Function.update_of_ne (show wk 1 ≠ wk 2 by decide), Function.update_of_ne (show wk 0 ≠ wk 3 by decide),
    Function.update_of_ne (show wk 0 ≠ wk 2 by decide), Function.update_of_ne (show wk 0 ≠ wk 1 by decide)] at h1 h2 h3 h4 h5 halpha hb3
  have e1 : w1 = V k := by
    rw [h1, hI.v2, ib2]
    funext i
    have := hI.b0
    simp only [Pi.smul_apply, smul_eq_mul]; field_simp
  have e3 : w3 = C (V k) := by rw [h3, h2, ← hC, e1]
  have ea : alpha = V k ⬝ᵥ C (V k) := by rw [halpha, hK.dot, e1, e3]
  have e5 : w5 = C (V k) - alpha • V k - bt k • pd 0 V k := by
    rw [h5, h4, e3, e1, hI.v1, ib2]
    funext i
    simp only [Pi.sub_apply, Pi.smul_apply, smul_eq_mul]; ring
  have hperp : ∀ j, j ≤ k → w5 ⬝ᵥ V j = 0 := fun j hj => by
    rw [e5, ea]; exact lanczos_perp hsym hI.orth hI.lan j hj
  -- the new column
  set V' : ℕ → Fin n → ℝ := Function.update V (k + 1) ((1 / b3) • w5) with hV'
  have hVk : ∀ j, j ≤ k → V' j = V j := fun j hj => by rw [hV', Function.update_of_ne (by omega)]
  have hVk1 : b3 • V' (k + 1) = w5 := by
    rw [hV', Function.update_self, smul_smul]
    by_cases h0 : b3 = 0
    · have := Euclid_zero hK (hb3.symm.trans h0)
      rw [this]; simp
    · rw [mul_one_div_cancel h0, one_smul]
  have hcol : C (V k) = b3 • V' (k + 1) + alpha • V k + bt k • pd 0 V k := by rw [hVk1, e5]; abel
  obtain ⟨delta, hdelta⟩ : ∃ x, x = gamma2 * alpha - gamma1 * sigma2 * beta2 := ⟨_, rfl⟩
  obtain ⟨rho2, hrho2⟩ : ∃ x, x = sigma2 * alpha + gamma1 * gamma2 * beta2 := ⟨_, rfl⟩
  obtain ⟨rho3, hrho3⟩ : ∃ x, x = sigma1 * beta2 := ⟨_, rfl⟩
  simp only [← hdelta, ← hrho2, ← hrho3]
  have hcol2 : C (V k) = delta • gp c sn V k + b3 • V' (k + 1) + rho2 • pd 0 (gq c sn V) k + rho3 • pd 0 (pd 0 (gq c sn V)) k := by
    have x1 := min_v (V := V) k hI.rot
    have x2 := min_vp (V := V) k hI.rot
    rw [hdelta, hrho2, hrho3, ig2, ig1, is2, is1, ib2]
    generalize pd 1 c k = g2 at x1 x2 ⊢
    generalize pd 1 (pd 1 c) k = g1 at x1 x2 ⊢
    generalize pd 0 sn k = s2 at x1 x2 ⊢
    generalize pd 0 (pd 0 sn) k = s1 at x1 x2 ⊢
    rw [hcol, x2]
    generalize pd 0 (gq c sn V) k = q1 at x1 x2 ⊢
    generalize pd 0 (pd 0 (gq c sn V)) k = q0 at x1 x2 ⊢
    generalize gp c sn V k = pp at x1 x2 ⊢
    rw [x1]
    module
  have hpos : 0 < delta * delta + b3 * b3 := by
    rcases eq_or_ne delta 0 with hd | hd
    · rcases eq_or_ne b3 0 with hb | hb
      · exfalso
        rw [hd, hb, zero_smul, zero_smul, zero_add, zero_add, ← hI.w1, ← hI.w0, ← map_smul, ← map_smul, ← map_add] at hcol2
        have hv := hinj hcol2
        have hp := hI.wp (V k) fun j hj => by rw [hI.orth k j le_rfl (by omega), if_neg (by omega)]
        have h1 := hI.orth k k le_rfl le_rfl
        rw [if_pos rfl] at h1
        nth_rewrite 2 [hv] at h1
        rw [dotProduct_add, dotProduct_smul, dotProduct_smul, hp.1, hp.2] at h1
        simp at h1
      · have := mul_self_pos.2 hb; have := mul_self_nonneg delta; linarith
    · have := mul_self_pos.2 hd; have := mul_self_nonneg b3; linarith
  have hsq : Real.sqrt (delta * delta + b3 * b3) ≠ 0 := (Real.sqrt_pos.2 hpos).ne'
  have hsq2 := Real.mul_self_sqrt hpos.le
  obtain ⟨rho1, hrho1⟩ : ∃ x, x = Real.sqrt (delta * delta + b3 * b3) := ⟨_, rfl⟩
  rw [← hrho1] at hsq hsq2
  simp only [← hrho1]
  obtain ⟨g3, hg3⟩ : ∃ x, x = delta / rho1 := ⟨_, rfl⟩
  obtain ⟨s3, hs3⟩ : ∃ x, x = b3 / rho1 := ⟨_, rfl⟩
  simp only [← hg3, ← hs3]
  set c' : ℕ → ℝ := Function.update c k g3 with hc'
  set sn' : ℕ → ℝ := Function.update sn k s3 with hsn'
  have hcs : ∀ j, j < k → c' j = c j ∧ sn' j = sn j := fun j hj => by
    rw [hc', hsn', Function.update_of_ne (by omega), Function.update_of_ne (by omega)]; exact ⟨rfl, rfl⟩
  have hgp : gp c' sn' V' k = gp c sn V k := gp_congr hcs hVk
  have hgq : ∀ j, j < k → gq c' sn' V' j = gq c sn V j := fun j hj =>
    gq_congr (fun i hi => hcs i (by omega)) fun i hi => hVk i (by omega)
  have hq1 : pd 0 (gq c' sn' V') k = pd 0 (gq c sn V) k := pd_congr hgq
  have hq0 : pd 0 (pd 0 (gq c' sn' V')) k = pd 0 (pd 0 (gq c sn V)) k :=
    pd_congr fun j hj => pd_congr fun i hi => hgq i (by omega)
  have hrot1 : c' k * c' k + sn' k * sn' k = 1 := by
    rw [hc', hsn', Function.update_self, Function.update_self, hg3, hs3]
    field_simp; rw [sq, sq, ← hsq2, sq]
  have hqk : rho1 • gq c' sn' V' k = delta • gp c sn V k + b3 • V' (k + 1) := by
    unfold gq
    rw [hgp, hc', hsn', Function.update_self, Function.update_self, hg3, hs3, smul_add, smul_smul, smul_smul,
      mul_div_cancel₀ _ hsq, mul_div_cancel₀ _ hsq]
  refine Ok_vop fun w6 h6 => Ok_vop fun w7 h7 => Ok_vop fun w8 h8 => Ok_vop fun w9 h9 => ?_
  simp only [VOp.dst, VOp.val, Function.update_self, Function.update_of_ne (show wk 1 ≠ wk 3 by decide),
    Function.update_of_ne (show wk 1 ≠ wk 2 by decide), Function.update_of_ne (show wk 4 ≠ wk 3 by decide),
    Function.update_of_ne (show wk 4 ≠ wk 2 by decide), Function.update_of_ne (show wk 4 ≠ wk 1 by decide),
    Function.update_of_ne (show wk 5 ≠ wk 6 by decide), Function.update_of_ne (show wk 5 ≠ wk 3 by decide),
    Function.update_of_ne (show wk 5 ≠ wk 2 by decide), Function.update_of_ne (show wk 5 ≠ wk 1 by decide),
    Function.update_of_ne (show hX ≠ wk 6 by decide), Function.update_of_ne (show hX ≠ wk 3 by decide),
    Function.update_of_ne (show hX ≠ wk 2 by decide), Function.update_of_ne (show hX ≠ wk 1 by decide)] at h6 h7 h8 h9 ⊢
  have e8 : w8 = (1 / rho1) • (V k - rho3 • s.h (wk 4) - rho2 • s.h (wk 5)) := by
    rw [h8, h7, h6, e1]
    funext i
    simp only [Pi.sub_apply, Pi.smul_apply, smul_eq_mul]; ring
  have hCw : C w8 = gq c' sn' V' k := by
    rw [e8, map_smul, map_sub, map_sub, map_smul, map_smul, hI.w1, hI.w0, hcol2]
    have : gq c' sn' V' k = (1 / rho1) • (rho1 • gq c' sn' V' k) := by
      rw [smul_smul, one_div_mul_cancel hsq, one_smul]
    rw [this, hqk]
    congr 1
    abel
  have e9 : w9 = fun i => s.h hX i + (g3 * eta) * w8 i := by rw [h9]
  -- the final heap, whatever else is in it
  have hres : ∀ h' : MHeap ℝ n, h' hB = s.h hB → h' hX = w9 → K.ps (trueRes K h') = (eta * -s3) • gp c' sn' V' (k + 1) := by
    intro h' hb hx
    have hx1 : trueRes K h' = fun i => trueRes K s.h i + (-(g3 * eta)) * K.mv w8 i := by
      unfold trueRes
      rw [hb, hx, e9, hlin]
      funext i
      ring
    rw [hx1, hps, ← hC, hCw, ires, ← hgp, gp_split hrot1]
    rw [show c' k = g3 by rw [hc', Function.update_self], show sn' k = s3 by rw [hsn', Function.update_self]]
    funext i
    simp only [Pi.add_apply, Pi.sub_apply, Pi.smul_apply, smul_eq_mul]; ring
  have hor : s3 = 0 ∨ (b3 ≠ 0 ∧ Orth V' (k + 1)) := by
    by_cases hb : b3 = 0
    · left; rw [hs3, hb, zero_div]
    · right
      have hu : V' (k + 1) ⬝ᵥ V' (k + 1) = 1 := by
        rw [hV', Function.update_self, smul_dotProduct, dotProduct_smul, ← Euclid_sq hK, ← hb3]
        simp only [smul_eq_mul]; field_simp
      have hp : ∀ j, j ≤ k → V' (k + 1) ⬝ᵥ V j = 0 := fun j hj => by
        rw [hV', Function.update_self, smul_dotProduct, hperp j hj, smul_zero]
      refine ⟨hb, fun i j hi hj => ?_⟩
      by_cases hi' : i = k + 1
      · subst hi'
        by_cases hj' : j = k + 1
        · subst hj'; rw [if_pos rfl, hu]
        · rw [hVk j (by omega), if_neg (by omega)]; exact hp j (by omega)
      · by_cases hj' : j = k + 1
        · subst hj'; rw [hVk i (by omega), if_neg (by omega), dotProduct_comm]; exact hp i (by omega)
        · rw [hVk i (by omega), hVk j (by omega)]; exact hI.orth i j (by omega) (by omega)
  have hrot' : ∀ j, j < k + 1 → c' j * c' j + sn' j * sn' j = 1 := fun j hj => by
    by_cases he : j = k
    · subst he; exact hrot1
    · rw [(hcs j (by omega)).1, (hcs j (by omega)).2]; exact hI.rot j (by omega)
  have hnrm : ∀ h' : MHeap ℝ n, h' hB = s.h hB → h' hX = w9 → reuc * |s3| = K.nrm2 (K.ps (trueRes K h')) := by
    intro h' hb hx
    rw [hres h' hb hx, Euclid_smul hK, abs_mul, abs_neg, ieta]
    rcases hor with h | ⟨-, h⟩
    · rw [h]; simp
    · rw [hK.nrm2, gp_unit h hrot', Real.sqrt_one, mul_one]
  have hbX : ∀ a, (Function.update (Function.update (Function.update (Function.update (Function.update (Function.update
      (Function.update (Function.update (Function.update s.h (wk 1) w1) (wk 2) w2) (wk 3) w3) (wk 3) w4) (wk 3) w5)
      (wk 6) w6) (wk 6) w7) (wk 6) w8) hX a) hB = s.h hB := fun a => by
    simp only [Function.update_of_ne (show hB ≠ hX by decide), Function.update_of_ne (show hB ≠ wk 6 by decide),
        Function.update_of_ne (show hB ≠ wk 3 by decide), Function.update_of_ne (show hB ≠ wk 2 by decide),
        Function.update_of_ne (show hB ≠ wk 1 by decide)]
  have hfin : ∀ (nn : ℝ), ¬ nn ≤ o.tol → nn = reuc * |s3| / r0 → ∀ h' : MHeap ℝ n, h' hB = s.h hB → h' hX = w9 → h' (wk 0) = w1 → h' (wk 1) = w5 →
      h' (wk 4) = s.h (wk 5) → h' (wk 5) = w8 →
      (∃ V c sn al bt, MinI K C (k + 1) V c sn al bt ⟨b3, gamma2, g3, sigma2, s3, eta * -s3, reuc * |s3|⟩ h') ∧
      nn = K.nrm2 (K.ps (trueRes K h')) / r0 := by
    intro nn hle hnn h' hb hx hv0 hv1 hw4 hw5
    have hs30 : s3 ≠ 0 := by
      intro h
      apply hle
      rw [hnn, h]; simpa using ht
    obtain ⟨hb30, hor⟩ := hor.resolve_left hs30
    refine ⟨⟨V', c', sn', Function.update al k alpha, Function.update bt (k + 1) b3, ?_⟩, by rw [hnn, hnrm h' hb hx]⟩
    refine ⟨?_, ?_, ?_, ?_, ?_, ?_, ?_, ?_, hor, ?_, hrot', ?_, ?_, ?_, hres h' hb hx, ?_⟩
    · simp only [pd]; rw [hc', Function.update_self]
    · simp only [pd]; rw [ig2]; exact pd_congr fun j hj => (hcs j hj).1.symm
    · simp only [pd]; rw [hsn', Function.update_self]
    · simp only [pd]; rw [is2]; exact pd_congr fun j hj => (hcs j hj).2.symm
    · rw [Function.update_self]
    · rw [Function.update_self]; exact hb30
    · rw [Function.update_self, hVk1, hv1]
    · simp only [pd]; rw [hv0, e1, hVk k le_rfl]
    · intro j hj
      have hpd : pd 0 V' j = pd 0 V j := pd_congr fun i hi => hVk i (by omega)
      rw [hpd, hVk j (by omega), Function.update_of_ne (show j ≠ k + 1 by omega) b3 bt]
      by_cases he : j = k
      · subst he
        rw [Function.update_self, Function.update_self]; exact hcol
      · rw [Function.update_of_ne (show j + 1 ≠ k + 1 by omega) b3 bt, Function.update_of_ne he, hVk (j + 1) (by omega)]
        exact hI.lan j (by omega)
    · simp only [pd]; rw [hw5, hCw]
    · rw [hw4, hI.w1]; exact hq1.symm
    · intro w hw
      have hw' : ∀ j, j < k + 1 → w ⬝ᵥ V j = 0 := fun j hj => by rw [← hVk j (by omega)]; exact hw j hj
      have hp := hI.wp w fun j hj => hw' j (by omega)
      rw [hw4, hw5, e8, dotProduct_smul, dotProduct_sub, dotProduct_sub, dotProduct_smul, dotProduct_smul, hp.1, hp.2,
        hw' k (by omega)]
      simp
    · simp only
      rw [abs_mul, abs_neg, ieta]
  refine Ok_pif (fun hm => Ok_hist (by exact hi) ?_) fun hm => ?_
  all_goals
    refine Ok_pif (fun hle => Ok_ret ⟨by simp, ?_⟩) fun hle => Ok_vop fun w10 h10 => Ok_vop fun w11 h11 => Ok_vop fun w12 h12 =>
      Ok_vop fun w13 h13 => Ok_ret ⟨by simp, ?_⟩
    · simp only
      rw [← hnrm _ (hbX w9) (Function.update_self ..)]
    · simp only [VOp.dst, VOp.val] at h10 h11 h12 h13
      min_heap at h10
      min_heap at h11
      min_heap at h12
      min_heap at h13
      refine hfin _ hle rfl _ ?_ ?_ ?_ ?_ ?_ ?_ <;> simp only [VOp.dst] <;> min_heap'
      · rw [h10]
      · rw [h11]
      · rw [h12]
      · rw [h13]

/-- **C25: the residual reported by `lis_minres`.**  For a linear `A` and `M⁻¹` with `M⁻¹ A` symmetric and nonsingular,
a tolerance `≥ 0` and `M⁻¹(b - A x0) ≠ 0`: the reported residual is `‖M⁻¹(b - A x)‖₂ / ‖M⁻¹(b - A x0)‖₂` for the
returned `x`. -/
theorem lisMinres_residual (tiny : ℝ) (K : Kit ℝ ℝ n) (hK : K.Euclid) (hlin : K.Linear) (hps : K.PsLinear)
    (hinj : ∀ x, K.ps (K.mv x) = 0 → x = 0) (hsym : ∀ x y, K.ps (K.mv x) ⬝ᵥ y = x ⬝ᵥ K.ps (K.mv y)) (o : Opts ℝ ℝ)
    (s : MSt ℝ ℝ n) (ht : 0 ≤ o.tol) (hr0 : K.ps (trueRes K s.h) ≠ 0) (hsz : o.maxiter < s.hist.size) :
    Ok ((lisMinres (gmReal tiny) o).run K s) fun r =>
      r.1.resid = K.nrm2 (K.ps (fun i => s.h hB i - K.mv (r.2.h hX) i)) / K.nrm2 (K.ps (fun i => s.h hB i - K.mv (s.h hX) i)) := by
  set C : (Fin n → ℝ) →ₗ[ℝ] (Fin n → ℝ) := (linMap K.ps hps).comp (linMap K.mv hlin) with hCdef
  have hCv : ∀ w, C w = K.ps (K.mv w) := fun _ => rfl
  have hCi : Function.Injective C := by
    rw [injective_iff_map_eq_zero]
    exact fun x hx => hinj x hx
  obtain ⟨r, hr, hst⟩ := lisMinres_status (gmReal tiny) K o s hsz
  suffices h : Ok ((lisMinres (gmReal tiny) o).run K s) fun r =>
      r.1.resid = K.nrm2 (K.ps (trueRes K r.2.h)) / K.nrm2 (K.ps (trueRes K s.h)) by
    obtain ⟨r', hr', h⟩ := h
    rw [hr] at hr'
    cases hr'
    refine ⟨r, hr, ?_⟩
    show r.1.resid = _
    rw [h]
    unfold trueRes
    rw [hst.b]
  clear hr hst r
  unfold lisMinres mainLoop
  simp only [vSetAll, mMatvec, mPsolve, vXpay, vNrm2, vCopy, gmReal, id]
  refine Ok_vop fun w1 h1 => Ok_vop fun w2 h2 => Ok_vop fun w3 h3 => Ok_vop fun w4 h4 => Ok_norm fun r0 hr => 
    Ok_vop fun w5 h5 => Ok_vop fun w6 h6 => Ok_vop fun w7 h7 => ?_
  simp only [VOp.dst, VOp.val, VNorm.run, Function.update_self, Function.update_of_ne (show hB ≠ wk 1 by decide)] at h1 h2 h3 h4 h5 h6 h7 hr ⊢
  have e4 : w4 = K.ps (trueRes K s.h) := by
    rw [h4, h3, h2, h1]
    congr 1
    funext i
    simp only [trueRes]; ring
  have er : r0 = K.nrm2 (K.ps (trueRes K s.h)) := by rw [hr, e4]
  have hr00 : r0 ≠ 0 := fun h => hr0 (Euclid_zero hK (er.symm.trans h))
  have hrn : 0 ≤ r0 := by rw [er, hK.nrm2]; exact Real.sqrt_nonneg _
  generalize hh : Function.update (Function.update (Function.update (Function.update (Function.update (Function.update
    (Function.update s.h (wk 1) w1) (wk 1) w2) (wk 2) w3) (wk 1) w4) (wk 0) w5) (wk 4) w6) (wk 5) w7 = h'
  have hT : trueRes K h' = trueRes K s.h := by
    unfold trueRes
    rw [← hh]
    simp only [Function.update_of_ne (show hB ≠ wk 5 by decide), Function.update_of_ne (show hB ≠ wk 4 by decide),
        Function.update_of_ne (show hB ≠ wk 0 by decide), Function.update_of_ne (show hB ≠ wk 2 by decide),
        Function.update_of_ne (show hB ≠ wk 1 by decide), Function.update_of_ne (show hX ≠ wk 5 by decide),
        Function.update_of_ne (show hX ≠ wk 4 by decide),
        Function.update_of_ne (show hX ≠ wk 0 by decide), Function.update_of_ne (show hX ≠ wk 2 by decide),
        Function.update_of_ne (show hX ≠ wk 1 by decide)]
  have h5' : h' (wk 5) = 0 := by rw [← hh, Function.update_self, h7]; rfl
  have h4' : h' (wk 4) = 0 := by rw [← hh, Function.update_of_ne (by decide), Function.update_self, h6]; rfl
  have h0' : h' (wk 0) = 0 := by
    rw [← hh, Function.update_of_ne (by decide), Function.update_of_ne (by decide), Function.update_self, h5]; rfl
  have h1' : h' (wk 1) = w4 := by
    rw [← hh, Function.update_of_ne (by decide), Function.update_of_ne (by decide), Function.update_of_ne (by decide),
      Function.update_self]
  have hinit : MinI K C 0 (fun _ => (1 / r0) • w4) (fun _ => 0) (fun _ => 0) (fun _ => 0) (fun _ => r0)
      ⟨r0, 1, 1, 0, 0, r0, r0⟩ h' := by
    have hx : r0 • (1 / r0) • w4 = w4 := by rw [smul_smul, mul_one_div_cancel hr00, one_smul]
    refine ⟨rfl, rfl, rfl, rfl, rfl, hr00, by rw [h1', hx], h0', ?_, by omega, by omega, by rw [h5', map_zero]; rfl,
      by rw [h4', map_zero]; rfl, fun w _ => by rw [h5', h4']; simp, ?_, abs_of_nonneg hrn⟩
    · intro i j hi hj
      rw [if_pos (by omega), smul_dotProduct, dotProduct_smul, ← Euclid_sq hK, ← hr]
      simp only [smul_eq_mul]; field_simp
    · rw [hT, ← e4]
      simp only [gp]
      exact hx.symm
  rw [← er]
  refine Ok_pbind (Ok_forIter (lo := 0) (fun k (p : MinSt ℝ ℝ × ℝ) s' => 1 ≤ k ∧ s'.hist.size = s.hist.size ∧
    (∃ V c sn al bt, MinI K C (k - 1) V c sn al bt p.1 s'.h) ∧ p.2 = K.nrm2 (K.ps (trueRes K s'.h)) / r0)
    o.maxiter 1 _ _ ⟨le_rfl, rfl, ⟨_, _, _, _, _, hinit⟩, ?_⟩ ?_ ?_)
  · simp only; rw [hT, ← er]
  · rintro k p s' k1 k2 ⟨-, hI1, hI2, -⟩
    have := minresBody_res tiny K hK hlin hps C hCv hCi hsym o ht r0 (k - 1) p s' (by rw [hI1]; omega) hI2
    rw [show k - 1 + 1 = k by omega] at this
    refine this.mono ?_
    rintro ⟨q | out, s2⟩ ⟨e1, e2⟩
    · simp only at e1 e2 ⊢
      exact ⟨by omega, e1.trans hI1, by rw [show k + 1 - 1 = k by omega]; exact e2.1, e2.2⟩
    · simp only at e1 e2 ⊢
      exact Ok_ret e2
  · rintro p s' ⟨-, -, -, hI⟩
    exact Ok_ret hI

/-- **C24/C25**: `LIS_SUCCESS` from `lis_minres` means `‖M⁻¹(b - A x)‖₂ ≤ tol ‖M⁻¹(b - A x0)‖₂`, whatever
`-conv_cond` is -/
theorem lisMinres_success (tiny : ℝ) (K : Kit ℝ ℝ n) (hK : K.Euclid) (hlin : K.Linear) (hps : K.PsLinear)
    (hinj : ∀ x, K.ps (K.mv x) = 0 → x = 0) (hsym : ∀ x y, K.ps (K.mv x) ⬝ᵥ y = x ⬝ᵥ K.ps (K.mv y)) (o : Opts ℝ ℝ)
    (s : MSt ℝ ℝ n) (ht : 0 ≤ o.tol) (hr0 : K.ps (trueRes K s.h) ≠ 0) (hsz : o.maxiter < s.hist.size) :
    Ok ((lisMinres (gmReal tiny) o).run K s) fun r => r.1.ret = .success →
      K.nrm2 (K.ps (fun i => s.h hB i - K.mv (r.2.h hX) i)) ≤
        o.tol * K.nrm2 (K.ps (fun i => s.h hB i - K.mv (s.h hX) i)) := by
  obtain ⟨r, hr, hst⟩ := lisMinres_status (gmReal tiny) K o s hsz
  obtain ⟨r', hr', h⟩ := lisMinres_residual tiny K hK hlin hps hinj hsym o s ht hr0 hsz
  rw [hr] at hr'
  cases hr'
  refine ⟨r, hr, fun hs => ?_⟩
  have hpos : 0 < K.nrm2 (K.ps (fun i => s.h hB i - K.mv (s.h hX) i)) := by
    refine lt_of_le_of_ne (by rw [hK.nrm2]; exact Real.sqrt_nonneg _) fun h => hr0 (Euclid_zero hK h.symm)
  rcases hst.cases with ⟨-, -, -, h', -⟩ | ⟨h', -⟩
  · rw [h] at h'
    exact (div_le_iff₀ hpos).1 h'
  · rw [hs] at h'; cases h'

end Lis
