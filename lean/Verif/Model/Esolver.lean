import Verif.Model.Solver

/-!
# Eigensolvers (src/esolver): power, inverse and Rayleigh quotient iteration, standard and generalized

They are programs over the same vector calls as the linear solvers, and in addition change the matrix
(`lis_matrix_shift_diagonal`, `lis_matrix_shift_matrix`) and call a linear solver (`lis_solve_kernel`).

Handles: `esolver->x = 0` (the variable `v`), `esolver->work[k] = k+1`.
Scalar operations are arbitrary (floating point is covered). `emaxiter ≤ 0` is `emaxiter = 0`.
Real build (`LIS_SCALAR = LIS_REAL` up to the conversion `ofS`) where the code stores a norm in a scalar
(lis_esolver_rqi.c:212). Not modelled: timing, printing, quad precision, errors of creating the inner solver.
-/

namespace Lis
variable {R S : Type}

/-- a program of an eigensolver. The `Bool` says which matrix a call refers to: `false` = `A`, `true` = `B`.
`shift a` is `lis_matrix_shift_diagonal(A,a)` or `lis_matrix_shift_matrix(A,B,a)`;
`lin m x y` is `lis_solve_kernel(m,x,y,solver,precon)` with its return value. -/
inductive EProg (R S α : Type) where
  | ret (a : α)
  | vop (m : Bool) (o : VOp R) (k : EProg R S α)
  | red (o : VRed) (k : R → EProg R S α)
  | norm (o : VNorm) (k : S → EProg R S α)
  | hist (i : ℕ) (v : S) (k : EProg R S α)
  | shift (a : R) (k : EProg R S α)
  | lin (m : Bool) (x y : ℕ) (h : x ≠ y) (k : Err → EProg R S α)

namespace EProg
variable {α β : Type}

def bind : EProg R S α → (α → EProg R S β) → EProg R S β
  | ret a, f => f a
  | vop m o k, f => vop m o (bind k f)
  | red o k, f => red o fun r => bind (k r) f
  | norm o k, f => norm o fun r => bind (k r) f
  | hist i v k, f => hist i v (bind k f)
  | shift a k, f => shift a (bind k f)
  | lin m x y h k, f => lin m x y h fun e => bind (k e) f

instance : Monad (EProg R S) where
  pure := ret
  bind := bind

end EProg

/-- what the calls of an eigensolver compute; the matrix products depend on the state `M` of the matrices -/
structure EKit (R S M : Type) (n : ℕ) where
  /-- inner products and norms (its matrix functions are not used) -/
  base : Kit R S n
  /-- product with `A` (`false`) or `B` (`true`) -/
  mv : Bool → M → (Fin n → R) → (Fin n → R)
  /-- product with the conjugate transpose (not called by the eigensolvers modelled) -/
  mvh : Bool → M → (Fin n → R) → (Fin n → R)
  shift : R → M → M
  /-- return code and result of the inner linear solver for matrix, right-hand side and previous content of `y` -/
  lin : Bool → M → (Fin n → R) → (Fin n → R) → Err × (Fin n → R)

/-- the functions of the vector calls when the matrices are `m` -/
def EKit.kit {M : Type} {n : ℕ} (K : EKit R S M n) (b : Bool) (m : M) : Kit R S n := { K.base with mv := K.mv b m, mvh := K.mvh b m }

/-- machine state: matrices, vectors, residual history -/
structure ESt (R S M : Type) (n : ℕ) where
  m : M
  h : MHeap R n
  hist : Arr S

def EProg.run [Add R] [Mul R] [Star R] {M : Type} {n : ℕ} (K : EKit R S M n) {α : Type} :
    EProg R S α → ESt R S M n → Option (α × ESt R S M n)
  | .ret a, s => some (a, s)
  | .vop m o k, s => k.run K { s with h := o.run (K.kit m s.m) s.h }
  | .red o k, s => (k (o.run (K.kit false s.m) s.h)).run K s
  | .norm o k, s => (k (o.run (K.kit false s.m) s.h)).run K s
  | .hist i v k, s => (s.hist.wr i v).bind fun a => k.run K { s with hist := a }
  | .shift a k, s => k.run K { s with m := K.shift a s.m }
  | .lin m x y _ k, s =>
    let r := K.lin m s.m (s.h x) (s.h y)
    (k r.1).run K { s with h := Function.update s.h y r.2 }

/-- the array-level calls: `M` is the matrices as stored -/
structure AEKit (R S M : Type) where
  kit : Bool → M → AKit R S
  shift : R → M → Option M
  lin : Bool → M → ℕ → ℕ → Vecs R → Option (Err × Vecs R)

structure AESt (R S M : Type) where
  m : M
  h : Vecs R
  hist : Arr S

def EProg.exec [Zero R] [Add R] [Mul R] [Star R] [Zero S] [Add S] {M : Type} (K : AEKit R S M) {α : Type} :
    EProg R S α → AESt R S M → Option (α × AESt R S M)
  | .ret a, s => some (a, s)
  | .vop m o k, s => (o.exec (K.kit m s.m) s.h).bind fun h => k.exec K { s with h := h }
  | .red o k, s => (o.exec (K.kit false s.m) s.h).bind fun r => (k r).exec K s
  | .norm o k, s => (o.exec (K.kit false s.m) s.h).bind fun r => (k r).exec K s
  | .hist i v k, s => (s.hist.wr i v).bind fun a => k.exec K { s with hist := a }
  | .shift a k, s => (K.shift a s.m).bind fun m => k.exec K { s with m := m }
  | .lin m x y _ k, s => (K.lin m s.m x y s.h).bind fun r => (k r.1).exec K { s with h := r.2 }

section calls
def eCopy (x y : ℕ) : EProg R S Unit := .vop false (.copy x y) (.ret ())
def eAxpyz (a : R) (x y z : ℕ) : EProg R S Unit := .vop false (.axpyz a x y z) (.ret ())
def eScale (a : R) (x : ℕ) : EProg R S Unit := .vop false (.scale a x) (.ret ())
def eSetAll (a : R) (x : ℕ) : EProg R S Unit := .vop false (.setAll a x) (.ret ())
def eMatvec (m : Bool) (x y : ℕ) (h : x ≠ y := by decide) : EProg R S Unit := .vop m (.matvec x y h) (.ret ())
def eDot (x y : ℕ) : EProg R S R := .red (.dot x y) .ret
def eNrm2 (x : ℕ) : EProg R S S := .norm (.nrm2 x) .ret
def eHist (i : ℕ) (v : S) : EProg R S Unit := .hist i v (.ret ())
def eShift (a : R) : EProg R S Unit := .shift a (.ret ())
def eLin (m : Bool) (x y : ℕ) (h : x ≠ y := by decide) : EProg R S Err := .lin m x y h .ret
end calls

/-- the scalar functions of the eigensolvers: `fabs(theta)`, conversion of a `LIS_REAL`, `sqrt` of a scalar -/
class EigOps (R S : Type) where
  fabs : R → S
  ofS : S → R
  sqrt : R → R

/-- the options an eigensolver reads: `LIS_EOPTIONS_MAXITER`, `_INITGUESS_ONES`, `_OUTPUT & LIS_EPRINT_MEM`,
`LIS_EPARAMS_RESID`, `LIS_EPARAMS_SHIFT`, `esolver->ishift` -/
structure EOpts (R S : Type) where
  maxiter : ℕ
  ones : Bool
  mem : Bool
  tol : S
  shift : R
  ishift : R

/-- the result: the value returned (and stored as `retcode` by `lis_gesolve`), and `iter[0]`, `resid[0]`, `evalue[0]` if the
eigensolver set them -/
structure EOut (R S : Type) where
  ret : Err
  res : Option (ℕ × S × R)

abbrev eV : ℕ := 0

/-- `while( iter<emaxiter ){ iter = iter+1; … }` with `return` inside; `fuel = emaxiter+1-iter`.
E.g. src/esolver/lis_esolver_pi.c:174-215 -/
def eFor {σ : Type} (body : ℕ → σ → EProg R S (σ ⊕ EOut R S)) : ℕ → ℕ → σ → EProg R S (σ ⊕ EOut R S)
  | 0, _, s => pure (.inl s)
  | k + 1, i, s => do
    match ← body i s with
    | .inl s => eFor body k (i + 1) s
    | .inr o => pure (.inr o)

section solvers
variable [Zero R] [One R] [Add R] [Neg R] [Mul R] [Div R] [DecidableEq R] [RealOps S] [EigOps R S]

/-- `lis_vector_nrm2(v,&nrm2); lis_vector_scale(1.0/nrm2,v)`. E.g. src/esolver/lis_esolver_pi.c:178-180 -/
def eNormalize (v : ℕ) : EProg R S Unit := do
  let nrm2 ← (eNrm2 v : EProg R S S)
  eScale (EigOps.ofS (1 / nrm2)) v

/-- the shift used: `esolver->ishift` if nonzero, else the option. E.g. src/esolver/lis_esolver_pi.c:161 -/
def EOpts.sigma (o : EOpts R S) : R := if o.ishift = 0 then o.shift else o.ishift

/-- `if( oshift!=0.0 ) lis_matrix_shift_…(A,a)`. E.g. src/esolver/lis_esolver_pi.c:162 -/
def eShiftIf (o : EOpts R S) (a : R) : EProg R S Unit :=
  if o.sigma = 0 then pure () else eShift a

/-- the initial vector: `if( initguess_ones ) lis_vector_set_all(1.0,v)`. E.g. src/esolver/lis_esolver_pi.c:155-158 -/
def eStart (o : EOpts R S) : EProg R S Unit :=
  if o.ones then eSetAll 1 eV else pure ()

/-- storing the residual. E.g. src/esolver/lis_esolver_pi.c:196-200 -/
def eRecord (o : EOpts R S) (iter : ℕ) (resid : S) : EProg R S Unit :=
  if o.mem then eHist iter resid else pure ()

/-- the last part of every iteration: record, test, and on success normalize and shift back.
src/esolver/lis_esolver_pi.c:196-214, lis_esolver_ii.c:242-262. `lam` is the eigenvalue reported for `theta`. -/
def eTest (o : EOpts R S) (iter : ℕ) (theta : R) (resid : S) (lam : R → R) :
    EProg R S ((R × S) ⊕ EOut R S) := do
  eRecord o iter resid
  if resid ≤ o.tol then
    eNormalize eV
    eShiftIf o (-o.sigma)
    pure (.inr ⟨.success, some (iter, resid, lam theta)⟩)
  else pure (.inl (theta, resid))

/-- the part after the loop. src/esolver/lis_esolver_pi.c:217-225, lis_esolver_ii.c:265-276 -/
def eDone (o : EOpts R S) (lam : R → R) (r : (R × S) ⊕ EOut R S) : EProg R S (EOut R S) :=
  match r with
  | .inr e => pure e
  | .inl (theta, resid) => do
    eNormalize eV
    eShiftIf o (-o.sigma)
    pure ⟨.maxiter, some (o.maxiter, resid, lam theta)⟩

/-- one iteration of `lis_epi`: y = work[0], q = work[1]. src/esolver/lis_esolver_pi.c:174-215 -/
def epiBody (o : EOpts R S) (iter : ℕ) (_s : R × S) : EProg R S ((R × S) ⊕ EOut R S) := do
  eNormalize eV
  eMatvec false eV 1
  let theta ← eDot eV 1
  eAxpyz (-theta) eV 1 2
  let nq ← (eNrm2 2 : EProg R S S)
  let resid := nq / EigOps.fabs theta
  eCopy 1 eV
  eTest o iter theta resid fun t => t + o.sigma

/-- `lis_epi`: power iteration. `jt`, `jr`: the uninitialised `theta`, `resid`. src/esolver/lis_esolver_pi.c:127-226 -/
def lisEpi (jt : R) (jr : S) (o : EOpts R S) : EProg R S (EOut R S) := do
  eStart o
  eShiftIf o o.sigma
  let r ← eFor (epiBody o) o.maxiter 1 (jt, jr)
  eDone o (fun t => t + o.sigma) r

/-- one iteration of `lis_eii`: y = work[0], q = work[1]. src/esolver/lis_esolver_ii.c:207-263 -/
def eiiBody (o : EOpts R S) (iter : ℕ) (_s : R × S) : EProg R S ((R × S) ⊕ EOut R S) := do
  eNormalize eV
  let err ← (eLin false eV 1 : EProg R S Err)
  if err ≠ .success then pure (.inr ⟨err, none⟩) else
  let theta ← eDot eV 1
  eAxpyz (-theta) eV 1 2
  let nq ← (eNrm2 2 : EProg R S S)
  let resid := nq / EigOps.fabs theta
  eCopy 1 eV
  eTest o iter theta resid fun t => 1 / t + o.sigma

/-- `lis_eii`: inverse iteration. src/esolver/lis_esolver_ii.c:127-277 -/
def lisEii (jt : R) (jr : S) (o : EOpts R S) : EProg R S (EOut R S) := do
  eStart o
  eShiftIf o o.sigma
  let r ← eFor (eiiBody o) o.maxiter 1 (jt, jr)
  eDone o (fun t => 1 / t + o.sigma) r

/-- one iteration of `lis_erqi`; the loop state is (rho, resid). y = work[0], q = work[1].
src/esolver/lis_esolver_rqi.c:195-255 -/
def erqiBody (o : EOpts R S) (iter : ℕ) (s : R × S) : EProg R S ((R × S) ⊕ EOut R S) := do
  let rho := s.1
  eShift rho
  let err ← (eLin false eV 1 : EProg R S Err)
  if err ≠ .success then pure (.inr ⟨err, none⟩) else
  eShift (-rho)
  let nrm ← (eNrm2 1 : EProg R S S)
  let theta : R := EigOps.ofS nrm
  let dotvy ← eDot eV 1
  let rho := rho + dotvy / (theta * theta)
  eAxpyz (-dotvy) eV 1 2
  let nq ← (eNrm2 2 : EProg R S S)
  let resid := nq / EigOps.fabs dotvy
  eScale (1 / theta) 1
  eCopy 1 eV
  eRecord o iter resid
  if resid ≤ o.tol then
    eNormalize eV
    pure (.inr ⟨.success, some (iter, resid, rho)⟩)
  else pure (.inl (rho, resid))

/-- `lis_erqi`: Rayleigh quotient iteration. src/esolver/lis_esolver_rqi.c:129-268 -/
def lisErqi (jr : S) (o : EOpts R S) : EProg R S (EOut R S) := do
  eStart o
  eNormalize eV
  eMatvec false eV 1
  let rho ← eDot eV 1
  match ← eFor (erqiBody o) o.maxiter 1 (rho, jr) with
  | .inr e => pure e
  | .inl (rho, resid) => do
    eNormalize eV
    pure ⟨.maxiter, some (o.maxiter, resid, rho)⟩

/-- one iteration of `lis_egpi`: w = work[0], y = work[1], q = work[2]. src/esolver/lis_esolver_pi.c:385-450 -/
def egpiBody (o : EOpts R S) (iter : ℕ) (_s : R × S) : EProg R S ((R × S) ⊕ EOut R S) := do
  eNormalize eV
  eMatvec false eV 1
  let e2 ← eDot eV 1
  let eta : R := EigOps.sqrt S e2
  eScale (1 / eta) eV
  eScale (1 / eta) 1
  let err ← (eLin true 1 2 : EProg R S Err)
  if err ≠ .success then pure (.inr ⟨err, none⟩) else
  let theta ← eDot 1 2
  eAxpyz (-theta) eV 2 3
  let nq ← (eNrm2 3 : EProg R S S)
  let resid := nq / EigOps.fabs theta
  eCopy 2 eV
  eTest o iter theta resid fun t => t + o.sigma

/-- `lis_egpi`: generalized power iteration. src/esolver/lis_esolver_pi.c:305-464 -/
def lisEgpi (jt : R) (jr : S) (o : EOpts R S) : EProg R S (EOut R S) := do
  eStart o
  eShiftIf o o.sigma
  let r ← eFor (egpiBody o) o.maxiter 1 (jt, jr)
  eDone o (fun t => t + o.sigma) r

/-- one iteration of `lis_egii`: w = work[0], y = work[1], q = work[2]. src/esolver/lis_esolver_ii.c:439-505 -/
def egiiBody (o : EOpts R S) (iter : ℕ) (_s : R × S) : EProg R S ((R × S) ⊕ EOut R S) := do
  eNormalize eV
  eMatvec true eV 1
  let e2 ← eDot 1 eV
  let eta : R := EigOps.sqrt S e2
  eScale (1 / eta) eV
  eScale (1 / eta) 1
  let err ← (eLin false 1 2 : EProg R S Err)
  if err ≠ .success then pure (.inr ⟨err, none⟩) else
  let theta ← eDot 1 2
  eAxpyz (-theta) eV 2 3
  let nq ← (eNrm2 3 : EProg R S S)
  let resid := nq / EigOps.fabs theta
  eCopy 2 eV
  eTest o iter theta resid fun t => 1 / t + o.sigma

/-- `lis_egii`: generalized inverse iteration. src/esolver/lis_esolver_ii.c:357-519 -/
def lisEgii (jt : R) (jr : S) (o : EOpts R S) : EProg R S (EOut R S) := do
  eStart o
  eShiftIf o o.sigma
  let r ← eFor (egiiBody o) o.maxiter 1 (jt, jr)
  eDone o (fun t => 1 / t + o.sigma) r

/-- one iteration of `lis_egrqi`; the loop state is (rho, resid). w = work[0], y = work[1].
src/esolver/lis_esolver_rqi.c:423-488 -/
def egrqiBody (o : EOpts R S) (iter : ℕ) (s : R × S) : EProg R S ((R × S) ⊕ EOut R S) := do
  let rho := s.1
  eShift rho
  let err ← (eLin false 1 2 : EProg R S Err)
  if err ≠ .success then pure (.inr ⟨err, none⟩) else
  eShift (-rho)
  let theta ← eDot 1 2
  eMatvec true 2 1
  let e2 ← eDot 1 2
  let eta : R := EigOps.sqrt S e2
  eScale (1 / eta) 2
  eCopy 2 eV
  eScale (1 / eta) 1
  let rho := rho + theta / (eta * eta)
  let resid : S := 1 / EigOps.fabs theta
  eRecord o iter resid
  if resid ≤ o.tol then
    eNormalize eV
    pure (.inr ⟨.success, some (iter, resid, rho)⟩)
  else pure (.inl (rho, resid))

/-- `lis_egrqi`: generalized Rayleigh quotient iteration. src/esolver/lis_esolver_rqi.c:350-501 -/
def lisEgrqi (jr : S) (o : EOpts R S) : EProg R S (EOut R S) := do
  eStart o
  eNormalize eV
  eMatvec true eV 1
  eMatvec false eV 2
  let r1 ← eDot 1 2
  let dotww ← eDot 1 1
  match ← eFor (egrqiBody o) o.maxiter 1 (r1 / dotww, jr) with
  | .inr e => pure e
  | .inl (rho, resid) => do
    eNormalize eV
    pure ⟨.maxiter, some (o.maxiter, resid, rho)⟩

end solvers

end Lis
