import Verif.Model.Solver2

/-!
# lis_gmres, lis_fgmres (src/solver/lis_solver_gmres.c), double precision versions, real build

`m` is the restart value (`LIS_OPTIONS_RESTART`; `m ≥ 0` is all `lis_gmres_check_params` asks for).  The vector `s =
work[0]` has `m+1` elements and is local to a process; it is modelled as a scalar array.  `h` is one block of
`(h_dim+1)*(h_dim+2)` scalars, `h_dim = m+1`, uninitialised.
-/

namespace Lis
variable {R S : Type}

/-- conversions and functions on scalars: `(LIS_SCALAR)x`, `sqrt`, `fabs`, and the constant `1.0e-17` -/
structure GmFns (R S : Type) where
  ofS : S → R
  sqrt : R → R
  abs : R → S
  tiny : R

/-- `h[k+(i-1)*h_dim]` with `i-1 = ii` -/
abbrev gmH (m k ii : ℕ) : ℕ := k + ii * (m + 1)
/-- `h[j+cs]`, `h[j+sn]`. src/solver/lis_solver_gmres.c:175-176 -/
abbrev gmCs (m j : ℕ) : ℕ := j + (m + 1) * (m + 1)
abbrev gmSn (m j : ℕ) : ℕ := j + (m + 2) * (m + 1)

section
variable [Zero R] [One R] [Add R] [Neg R] [Mul R] [Div R] [Sub R] [Star R] [DecidableEq R] [RealOps S]

/-- Gram-Schmidt on `v[ii+1]`. src/solver/lis_solver_gmres.c:223-235 (lis_fgmres: 1205-1217) -/
def gmArnoldi (F : GmFns R S) (m : ℕ) (v : ℕ → ℕ) (ii : ℕ) (a : Arr (Option R)) : Prog R S (Arr (Option R)) := do
  let a ← pfor (fun k a => do
    let t ← vDot (v (ii + 1)) (v k)
    let a ← aWr a (gmH m k ii) (some t)
    vAxpy (-t) (v k) (v (ii + 1))
    pure a) (ii + 1) 0 a
  let t ← vNrm2 (v (ii + 1))
  let a ← aWr a (gmH m (ii + 1) ii) (some (F.ofS t))
  vScale (1 / F.ofS t) (v (ii + 1))
  pure a

/-- the old rotations on the new column, `jj = k-1 = 0 … ii-1`. src/solver/lis_solver_gmres.c:237-247 (1219-1229) -/
def gmRotate (m ii : ℕ) (a : Arr (Option R)) : Prog R S (Arr (Option R)) :=
  pfor (fun jj a => do
    let t ← aUse a (gmH m jj ii)
    let c ← aUse a (gmCs m jj)
    let s ← aUse a (gmSn m jj)
    let hk ← aUse a (gmH m (jj + 1) ii)
    let aa := c * t + s * hk
    let bb := -s * t + c * hk
    let a ← aWr a (gmH m jj ii) (some aa)
    let a ← aWr a (gmH m (jj + 1) ii) (some bb)
    pure a) ii 0 a

/-- the new rotation. src/solver/lis_solver_gmres.c:248-262 (1230-1244) -/
def gmGivens (F : GmFns R S) (m ii : ℕ) (a : Arr (Option R)) (s : Arr R) : Prog R S (Arr (Option R) × Arr R) := do
  let aa ← aUse a (gmH m ii ii)
  let bb ← aUse a (gmH m (ii + 1) ii)
  let rr := F.sqrt (aa * aa + bb * bb)
  let rr := if rr = 0 then F.tiny else rr
  let a ← aWr a (gmCs m ii) (some (aa / rr))
  let a ← aWr a (gmSn m ii) (some (bb / rr))
  let sn ← aUse a (gmSn m ii)
  let si ← aRd s ii
  let s ← aWr s (ii + 1) (-sn * si)
  let cs ← aUse a (gmCs m ii)
  let si ← aRd s ii
  let s ← aWr s ii (cs * si)
  let hi ← aUse a (gmH m ii ii)
  let h1 ← aUse a (gmH m (ii + 1) ii)
  let a ← aWr a (gmH m ii ii) (some (cs * hi + sn * h1))
  pure (a, s)

/-- column `ii`, iteration `iter` (already counted): result the arrays and `nrm2`.  `fin` turns `fabs(s[i1])` into
`nrm2`: times `bnrm2` in lis_gmres, nothing in lis_fgmres. src/solver/lis_solver_gmres.c:204-271 (1187-1253) -/
def gmStep (F : GmFns R S) (m : ℕ) (v z : ℕ → ℕ) (hvz : ∀ i, v i ≠ z i ∧ z i ≠ v (i + 1)) (fin : S → S) (o : Opts R S)
    (iter ii : ℕ) (a : Arr (Option R)) (s : Arr R) : Prog R S (Arr (Option R) × Arr R × S) := do
  mPsolve (v ii) (z ii) (hvz _).1
  mMatvec (z ii) (v (ii + 1)) (hvz _).2
  let a ← gmArnoldi F m v ii a
  let a ← gmRotate m ii a
  let (a, s) ← gmGivens F m ii a s
  let si ← aRd s (ii + 1)
  let nrm2 := fin (F.abs si)
  if o.mem = true then setHist iter nrm2
  pure (a, s, nrm2)

/-- the `do … while` loop: at most `k+1` columns from column `ii`; the result says which column was the last.
src/solver/lis_solver_gmres.c:203-274 (1186-1256) -/
def gmInner (F : GmFns R S) (m : ℕ) (v z : ℕ → ℕ) (hvz : ∀ i, v i ≠ z i ∧ z i ≠ v (i + 1)) (fin : S → S) (o : Opts R S) (tol : S) :
    ℕ → ℕ → ℕ → Arr (Option R) → Arr R → Prog R S (Arr (Option R) × Arr R × S × ℕ)
  | 0, iter, ii, a, s => do
    let (a, s, nrm2) ← gmStep F m v z hvz fin o (iter + 1) ii a s
    pure (a, s, nrm2, ii)
  | k + 1, iter, ii, a, s => do
    let (a, s, nrm2) ← gmStep F m v z hvz fin o (iter + 1) ii a s
    if nrm2 ≤ tol then pure (a, s, nrm2, ii)
    else gmInner F m v z hvz fin o tol k (iter + 1) (ii + 1) a s

/-- back substitution, rows `k-1, …, 0`. src/solver/lis_solver_gmres.c:278-287 (1260-1269) -/
def gmBack (m ii : ℕ) (a : Arr (Option R)) : ℕ → Arr R → Prog R S (Arr R)
  | 0, s => pure s
  | jj + 1, s => do
    let t ← aRd s jj
    let t ← pfor (fun j t => do
      let x ← aUse a (gmH m jj j)
      let y ← aRd s j
      pure (t - x * y)) (ii - jj) (jj + 1) t
    let d ← aUse a (gmH m jj jj)
    let s ← aWr s jj (t / d)
    gmBack m ii a jj s

/-- `H y = s`. src/solver/lis_solver_gmres.c:276-287 (1258-1269) -/
def gmSolve (m ii : ℕ) (a : Arr (Option R)) (s : Arr R) : Prog R S (Arr R) := do
  let si ← aRd s ii
  let d ← aUse a (gmH m ii ii)
  let s ← aWr s ii (si / d)
  gmBack m ii a ii s

/-- the residual in terms of the basis. src/solver/lis_solver_gmres.c:321-326: `jj = k, …, 1` -/
def gmUnrot (m : ℕ) (a : Arr (Option R)) : ℕ → Arr R → Prog R S (Arr R)
  | 0, s => pure s
  | jj + 1, s => do
    let sn ← aUse a (gmSn m jj)
    let x ← aRd s (jj + 1)
    let s ← aWr s jj (-sn * x)
    let cs ← aUse a (gmCs m jj)
    let x ← aRd s (jj + 1)
    let s ← aWr s (jj + 1) (cs * x)
    gmUnrot m a jj s

/-- vectors of lis_gmres: r=work[1], z=work[2], v[j]=work[3+j] -/
abbrev gmV (j : ℕ) : ℕ := wk (3 + j)

theorem gmV_ne (i : ℕ) : gmV i ≠ (fun _ => wk 2) i ∧ (fun _ => wk 2) i ≠ gmV (i + 1) := by simp only [gmV, wk]; omega

/-- `x = x + M⁻¹ (Σ y_j v_j)`. src/solver/lis_solver_gmres.c:288-308 -/
def gmUpdate (ii : ℕ) (y : Arr R) : Prog R S Unit := do
  let y0 ← aRd y 0
  vComb y0 (gmV 0) [] (wk 2)
  pfor (fun j _ => do
    let yj ← aRd y j
    vAxpy yj (gmV j) (wk 2)) ii 1 ()
  mPsolve (wk 2) (wk 1)
  vAxpy 1 (wk 1) hX

/-- `v[0] = Σ_{j ≤ i1} s_j v_j`. src/solver/lis_solver_gmres.c:328-333 -/
def gmRestart (i1 : ℕ) (s : Arr R) : Prog R S Unit :=
  pfor (fun j _ => do
    let t ← aRd s j
    let t := if j = 0 then t - 1 else t
    vAxpy t (gmV j) (gmV 0)) (i1 + 1) 0 ()

/-- one pass of the outer loop of lis_gmres, entered with `iter`. src/solver/lis_solver_gmres.c:192-334 -/
def gmresBody (F : GmFns R S) (m : ℕ) (o : Opts R S) (t : Tols S) (iter : ℕ) (st : Arr (Option R) × S) :
    Prog R S ((Arr (Option R) × S) ⊕ Out S) := do
  let rnorm ← vNrm2 (gmV 0)
  vScale (1 / F.ofS rnorm) (gmV 0)
  let s ← aWr (.malloc (m + 1) fun _ => 0) 0 (F.ofS rnorm)
  let (a, s, nrm2, ii) ← gmInner F m gmV (fun _ => wk 2) gmV_ne (fun x => x * t.bnrm) o t.tol
    (min m (o.maxiter - iter) - 1) iter 0 st.1 s
  let s ← gmSolve m ii a s
  gmUpdate ii s
  if nrm2 ≤ t.tol then pure (.inr ⟨.success, iter + ii + 1, nrm2⟩)
  else do
    let s ← gmUnrot m a (ii + 1) s
    gmRestart (ii + 1) s
    pure (.inl (a, nrm2))

/-- `lis_gmres`.  The outer loop is entered with `iter = 0, m, 2m, …` while `iter < maxiter` (every pass makes `m`
iterations, at least one, and ends early only with `return` or at `maxiter`). The first three calls compute
`M⁻¹(b - A x)` into `v[0]`, which is then overwritten. src/solver/lis_solver_gmres.c:135-342 -/
def lisGmres (F : GmFns R S) (m : ℕ) (junk : S) (o : Opts R S) : Prog R S (Out S) := do
  mMatvec hX (wk 2)
  vXpay hB (-1) (wk 2)
  mPsolve (wk 2) (gmV 0)
  match ← initialResidual o (gmV 0) (by decide) with
  | .inl out => pure out
  | .inr t => do
    match ← forIter (fun k => gmresBody F m o t (k * max 1 m)) ((o.maxiter + max 1 m - 1) / max 1 m) 0
        (.malloc ((m + 1 + 1) * (m + 1 + 2)) fun _ => none, junk) with
    | .inr out => pure out
    | .inl st => pure ⟨.maxiter, o.maxiter + 1, st.2⟩

/-- vectors of lis_fgmres: z[j]=work[2+j], v[j]=work[m+2+j] -/
abbrev fgZ (j : ℕ) : ℕ := wk (2 + j)
abbrev fgV (m j : ℕ) : ℕ := wk (m + 2 + j)

theorem fgV_ne (m : ℕ) (hm : 1 ≤ m) (i : ℕ) : fgV m i ≠ fgZ i ∧ fgZ i ≠ fgV m (i + 1) := by
  simp only [fgV, fgZ, wk]; omega

/-- `x = x + Σ y_j z_j`. src/solver/lis_solver_gmres.c:1270-1274 -/
def fgUpdate (ii : ℕ) (y : Arr R) : Prog R S Unit :=
  pfor (fun j _ => do
    let yj ← aRd y j
    vAxpy yj (fgZ j) hX) (ii + 1) 0 ()

/-- one pass of the outer loop of lis_fgmres, entered with `iter`; the loop variables are `h`, `rnorm`, `bnrm2`, `nrm2`.
src/solver/lis_solver_gmres.c:1178-1292 -/
def fgmresBody (F : GmFns R S) (m : ℕ) (hm : 1 ≤ m) (o : Opts R S) (tol : S) (iter : ℕ) (st : Arr (Option R) × S × S × S) :
    Prog R S ((Arr (Option R) × S × S × S) ⊕ Out S) := do
  vScale (F.ofS st.2.2.1) (fgV m 0)
  let s ← aWr (.malloc (m + 1) fun _ => 0) 0 (F.ofS st.2.1)
  let (a, s, nrm2, ii) ← gmInner F m (fgV m) fgZ (fgV_ne m hm) id o tol
    (min m (o.maxiter - iter) - 1) iter 0 st.1 s
  let s ← gmSolve m ii a s
  fgUpdate ii s
  if nrm2 ≤ tol then pure (.inr ⟨.success, iter + ii + 1, nrm2⟩)
  else do
    mMatvec hX (fgV m 0) (by simp only [hX, fgV, wk]; omega)
    vXpay hB (-1) (fgV m 0)
    let rnorm ← vNrm2 (fgV m 0)
    pure (.inl (a, rnorm, 1 / rnorm, nrm2))

/-- `lis_fgmres`, for a restart value `m ≥ 1` (with `m = 0` the arrays `v` and `z` are the same vectors).
src/solver/lis_solver_gmres.c:1128-1301 -/
def lisFgmres (F : GmFns R S) (m : ℕ) (hm : 1 ≤ m) (junk : S) (o : Opts R S) : Prog R S (Out S) := do
  match ← initialResidual o (fgV m 0) (by simp only [hX, fgV, wk]; omega) with
  | .inl out => pure out
  | .inr t => do
    match ← forIter (fun k => fgmresBody F m hm o t.tol (k * m)) ((o.maxiter + m - 1) / m) 0
        (.malloc ((m + 1 + 1) * (m + 1 + 2)) fun _ => none, 1 / t.bnrm, t.bnrm, junk) with
    | .inr out => pure out
    | .inl st => pure ⟨.maxiter, o.maxiter + 1, st.2.2.2⟩

end
end Lis
