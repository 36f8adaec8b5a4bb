import Verif.Model.Esolver

/-!
# What a user of an eigensolver relies on

No law of arithmetic is assumed here: `K` says what the calls compute.
-/

namespace Lis
variable {R S M : Type} {n : ℕ}
variable [Zero R] [One R] [Add R] [Neg R] [Mul R] [Div R] [DecidableEq R] [RealOps S] [EigOps R S]

/-- `(1/‖u‖) u` -/
def unit (K : Kit R S n) (u : Fin n → R) : Fin n → R := fun i => EigOps.ofS (1 / K.nrm2 u) * u i

/-- `a • u` -/
def smulV (a : R) (u : Fin n → R) : Fin n → R := fun i => a * u i

/-- `‖y - theta v‖ / |theta|` -/
def relRes (K : Kit R S n) (theta : R) (v y : Fin n → R) : S := K.nrm2 (fun i => -theta * v i + y i) / EigOps.fabs theta

/-- what an eigensolver has reached: the matrices, the Rayleigh quotient, the residual, the iterate `v` and (generalized
Rayleigh quotient iteration only) the auxiliary vector `w` -/
structure EPt (R S M : Type) (n : ℕ) where
  m : M
  theta : R
  resid : S
  v : Fin n → R
  w : Fin n → R

/-- one power step from the iterate `p.v`: with `v = p.v/‖p.v‖`, `y = A v`, the quotient `theta = ⟨v,y⟩` and the residual
`‖y - theta v‖/|theta|` -/
def PowerStep (K : EKit R S M n) (p q : EPt R S M n) : Prop :=
  let k := K.base
  let v := unit k p.v
  q.m = p.m ∧ q.v = K.mv false p.m v ∧ q.theta = k.dot v q.v ∧ q.resid = relRes k q.theta v q.v

/-- one inverse step: as a power step, with `y` the answer of the linear solver for the right-hand side `v` -/
def InverseStep (K : EKit R S M n) (p q : EPt R S M n) : Prop :=
  let k := K.base
  let v := unit k p.v
  q.m = p.m ∧ (∃ y0, K.lin false p.m v y0 = (.success, q.v)) ∧ q.theta = k.dot v q.v ∧
    q.resid = relRes k q.theta v q.v

/-- `u` scaled to length one, then to `⟨v, C v⟩ = 1` (as far as `sqrt` does that): `v` and `w = C v` -/
def genScale (K : EKit R S M n) (b : Bool) (m : M) (u : Fin n → R) (flip : Bool) : (Fin n → R) × (Fin n → R) :=
  let k := K.base
  let v := unit k u
  let w := K.mv b m v
  let eta : R := EigOps.sqrt S (if flip then k.dot w v else k.dot v w)
  (smulV (1 / eta) v, smulV (1 / eta) w)

/-- one step of the generalized power iteration: `⟨v, A v⟩ = 1`, `w = A v`, `B y = w` by the linear solver,
`theta = ⟨w,y⟩` -/
def GenPowerStep (K : EKit R S M n) (p q : EPt R S M n) : Prop :=
  let k := K.base
  let v := (genScale K false p.m p.v false).1
  let w := (genScale K false p.m p.v false).2
  q.m = p.m ∧ (∃ y0, K.lin true p.m w y0 = (.success, q.v)) ∧ q.theta = k.dot w q.v ∧
    q.resid = relRes k q.theta v q.v

/-- one step of the generalized inverse iteration: `⟨v, B v⟩ = 1`, `w = B v`, `A y = w` -/
def GenInverseStep (K : EKit R S M n) (p q : EPt R S M n) : Prop :=
  let k := K.base
  let v := (genScale K true p.m p.v true).1
  let w := (genScale K true p.m p.v true).2
  q.m = p.m ∧ (∃ y0, K.lin false p.m w y0 = (.success, q.v)) ∧ q.theta = k.dot w q.v ∧
    q.resid = relRes k q.theta v q.v

/-- one step of Rayleigh quotient iteration from shift `rho = p.theta` and iterate `v = p.v`: the linear solver is given the
shifted matrix and right-hand side `v`, `rho' = rho + ⟨v,y⟩/‖y‖²`, the residual is `‖y - ⟨v,y⟩ v‖/|⟨v,y⟩|`, the next iterate
is `y/‖y‖`, and the matrix has been shifted back -/
def RayleighStep (K : EKit R S M n) (p q : EPt R S M n) : Prop :=
  let k := K.base
  q.m = K.shift (-p.theta) (K.shift p.theta p.m) ∧
  ∃ y0 y, K.lin false (K.shift p.theta p.m) p.v y0 = (.success, y) ∧
    q.theta = p.theta + k.dot p.v y / (EigOps.ofS (k.nrm2 y) * EigOps.ofS (k.nrm2 y)) ∧
    q.resid = relRes k (k.dot p.v y) p.v y ∧ q.v = smulV (1 / EigOps.ofS (k.nrm2 y)) y

/-- one step of the generalized Rayleigh quotient iteration from shift `rho` and `w`: the residual reported is
`1/|⟨w,y⟩|`, the next iterates are `v' = y/eta`, `w' = B y/eta` with `eta² = ⟨B y, y⟩` -/
def GenRayleighStep (K : EKit R S M n) (p q : EPt R S M n) : Prop :=
  let k := K.base
  q.m = K.shift (-p.theta) (K.shift p.theta p.m) ∧
  ∃ y0 y, K.lin false (K.shift p.theta p.m) p.w y0 = (.success, y) ∧
    let z := K.mv true q.m y
    let eta : R := EigOps.sqrt S (k.dot z y)
    q.theta = p.theta + k.dot p.w y / (eta * eta) ∧ q.resid = 1 / EigOps.fabs (k.dot p.w y) ∧
    q.v = smulV (1 / eta) y ∧ q.w = smulV (1 / eta) z

/-- The contract of an eigensolver started in `s` that returned `out` in state `s'`: there is a sequence of points, the
first one `start`, each obtained from the one before by `Step`, that ends where the solver stopped.
`lam` is the eigenvalue reported for `theta`, `fin` what is done with the matrices at the end, `nrm` normalizes the
final vector; `Failed p e m'`: from the point `p` the linear solver returns `e`, which leaves the matrices `m'`. -/
structure EContract (o : EOpts R S) (Start : EPt R S M n → Prop) (Step : EPt R S M n → EPt R S M n → Prop)
    (lam : R → R) (fin : M → M) (nrm : (Fin n → R) → (Fin n → R)) (Failed : EPt R S M n → Err → M → Prop)
    (s s' : ESt R S M n) (out : EOut R S) : Prop where
  size : s'.hist.size = s.hist.size
  /-- the residual history is written only with `LIS_EPRINT_MEM`, and only for iterations that can be made -/
  hist : ∀ j, (o.mem = false ∨ j = 0 ∨ o.maxiter < j) → s'.hist.get j = s.hist.get j
  path : ∃ (x : ℕ → EPt R S M n) (k : ℕ), Start (x 0) ∧ k ≤ o.maxiter ∧ (∀ j, j < k → Step (x j) (x (j + 1))) ∧
    -- no iteration before the last met the tolerance
    (∀ j, 1 ≤ j → j < k → ¬ (x j).resid ≤ o.tol) ∧
    -- the residuals recorded are those of the iterations
    (o.mem → ∀ j, 1 ≤ j → j ≤ k → s'.hist.get j = (x j).resid) ∧
    ( -- converged: the residual of the last iteration met the tolerance
      (1 ≤ k ∧ (x k).resid ≤ o.tol ∧ out = ⟨.success, some (k, (x k).resid, lam (x k).theta)⟩ ∧
        s'.h eV = nrm (x k).v ∧ s'.m = fin (x k).m) ∨
      -- all iterations made, none met the tolerance
      (k = o.maxiter ∧ (1 ≤ k → ¬ (x k).resid ≤ o.tol) ∧
        out = ⟨.maxiter, some (k, (x k).resid, lam (x k).theta)⟩ ∧ s'.h eV = nrm (x k).v ∧ s'.m = fin (x k).m) ∨
      -- the linear solver returned an error in the next iteration, which is passed on; nothing else is reported
      (k < o.maxiter ∧ (1 ≤ k → ¬ (x k).resid ≤ o.tol) ∧ out.res = none ∧ out.ret ≠ .success ∧
        Failed (x k) out.ret s'.m))

end Lis
