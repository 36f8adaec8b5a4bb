import Verif.Model.CsrOps

/-!
# The scaling done by `lis_solve_kernel` and the flags that steer it

The state is what survives between calls of `lis_solve`: the matrix with its flag `is_scaled`, the right-hand sides with
theirs, and the vector `d` kept in each solver object. The linear solver itself (`lis_solver_execute[nsolver]`, with the
preconditioner) is a parameter: any function from the matrix, the right-hand side and the initial guess to a vector.

Modelled: CSR matrices that are not split, serial build, `np = n`.
Not modelled here: block scaling of BSR matrices (lis_solver.c:659-691), the I+S preconditioner's own matrix
(lis_solver.c:723-737), the conversion to the `-storage` format (lis_solver.c:744-757).
-/

namespace Lis
variable {R : Type}

/-- `LIS_SCALE_NONE`, `LIS_SCALE_JACOBI`, `LIS_SCALE_SYMM_DIAG`. include/lis.h:151-153 -/
inductive ScaleOpt
  | none | jacobi | symm
  deriving DecidableEq

/-- the settings of a solver object the scaling depends on: option `-scale`, whether the solver is CG, whether it is one
of the stationary solvers (JACOBI, GS, SOR), whether the preconditioner is I+S (`-p is`), whether there is any
preconditioner. src/solver/lis_solver.c:613-720 -/
structure ScaleSet where
  scale : ScaleOpt
  cg : Bool := false
  stationary : Bool := false
  preIS : Bool := false
  precon : Bool := false

/-- The data that persist between calls: matrix, its flag, right-hand sides (by number) with their flags, and
`solver->d` of every solver object (by number; `none` is the NULL pointer).
include/lis.h:525-640 (fields is_scaled), src/solver/lis_solver.c:308-360 (d starts as NULL) -/
structure SSys (R : Type) where
  A : Csr R
  aFlag : Bool
  b : ℕ → Arr R
  bFlag : ℕ → Bool
  d : ℕ → Option (Arr R)

def SSys.setB (S : SSys R) (k : ℕ) (v : Arr R) : SSys R := { S with b := fun j => if j = k then v else S.b j }
def SSys.setBFlag (S : SSys R) (k : ℕ) (f : Bool) : SSys R :=
  { S with bFlag := fun j => if j = k then f else S.bFlag j }
def SSys.setD (S : SSys R) (s : ℕ) (v : Arr R) : SSys R :=
  { S with d := fun j => if j = s then some v else S.d j }

/-- the numerical part of `lis_matrix_scale`. src/matrix/lis_matrix_ops.c:579-711 -/
def matrixScaleBy [Zero R] [Mul R] (inv rsq : R → R) (symm : Bool) (A : Csr R) (b d : Arr R) :
    Option (Csr R × Arr R × Arr R) :=
  if symm then matrixScaleSymm rsq A b d else matrixScaleJacobi inv A b d

/-- `lis_matrix_scale(A, b, d, action)`, action JACOBI or SYMM_DIAG: scales matrix and right-hand side and sets both
flags. src/matrix/lis_matrix_ops.c:579-715 -/
def matrixScaleFlags [Zero R] [Mul R] (inv rsq : R → R) (symm : Bool) (s k : ℕ) (d : Arr R) (S : SSys R) :
    Option (SSys R) := do
  let r ← matrixScaleBy inv rsq symm S.A (S.b k) d
  pure (({ S with A := r.1, aFlag := true }.setB k r.2.1).setBFlag k true |>.setD s r.2.2)

/-- `for(i=0;i<n;i++) b->value[i] = b->value[i]*solver->d->value[i];` — the flag of `b` is left alone.
src/solver/lis_solver.c:627-636, 710-719 -/
def rescaleRhs [Mul R] (k : ℕ) (d : Arr R) (S : SSys R) : Option (SSys R) := do
  let b ← loop 0 S.A.n (S.b k) fun i b => do
    let v ← b.rd i
    let w ← d.rd i
    b.wr i (v * w)
  pure (S.setB k b)

/-- Lines 613-720: returns the state handed to the linear solver and the value of the variable `scale`
(changed from JACOBI to SYMM_DIAG for CG). `vjunk` is the content of the vector created for a NULL `solver->d`.
src/solver/lis_solver.c:613-720 -/
def kernelScale [Zero R] [Mul R] (inv rsq : R → R) (vjunk : ℕ → R) (c : ScaleSet) (s k : ℕ) (S : SSys R) :
    Option (SSys R × ScaleOpt) := do
  let d := (S.d s).getD (Arr.malloc S.A.n vjunk)
  let S1 := S.setD s d
  if c.preIS then
    if S.aFlag = false then
      let S' ← matrixScaleFlags inv rsq false s k d S1
      pure (S', c.scale)
    else if S.bFlag k = false then
      let S' ← rescaleRhs k d S1
      pure (S', c.scale)
    else pure (S1, c.scale)
  else if c.stationary && c.precon then
    if S.aFlag = false then
      let S' ← matrixScaleFlags inv rsq false s k d S1
      pure (S', c.scale)
    else pure (S1, c.scale)
  else if c.scale = .none then
    pure (S, c.scale)
  else
    let scale := if c.scale = .jacobi ∧ c.cg = true then .symm else c.scale
    if S.aFlag = false then
      let S' ← matrixScaleFlags inv rsq (scale = .symm) s k d S1
      pure (S', scale)
    else if S.bFlag k = false then
      let S' ← rescaleRhs k d S1
      pure (S', scale)
    else pure (S1, scale)

/-- Lines 877-893: the user's `x` from the vector `xx` the linear solver worked on.
src/solver/lis_solver.c:859-890 -/
def kernelUnscale [Mul R] (c : ScaleSet) (scale : ScaleOpt) (n : ℕ) (d : Option (Arr R)) (xx x : Arr R) :
    Option (Arr R) :=
  if scale = .symm ∧ c.preIS = false then do
    let d ← d
    loop 0 n x fun i x => do
      let v ← xx.rd i
      let w ← d.rd i
      x.wr i (v * w)
  else
    loop 0 n x fun i x => do
      let v ← xx.rd i
      x.wr i v

/-- One call of `lis_solve` with solver object `s` and right-hand side `k`: state after the call and the result in `x`.
`exec` is the linear solver; `xx` is a copy of the initial guess `x`. src/solver/lis_solver.c:530-890 -/
def solveCall [Zero R] [Mul R] (inv rsq : R → R) (vjunk : ℕ → R) (exec : Csr R → Arr R → Arr R → Arr R)
    (c : ScaleSet) (s k : ℕ) (x : Arr R) (S : SSys R) : Option (SSys R × Arr R) := do
  let r ← kernelScale inv rsq vjunk c s k S
  let xx := exec r.1.A (r.1.b k) x
  let x ← kernelUnscale c r.2 r.1.A.n (r.1.d s) xx x
  pure (r.1, x)

/-- What a program does between solves. `fill k v`: store new values in right-hand side `k` (`lis_vector_set_value` …);
`resetB k`: `lis_vector_psd_reset_scale`; `fillA`: store new values in the matrix (`lis_matrix_psd_set_value`);
`resetA`: `lis_matrix_psd_reset_scale`; `solve k x`: `lis_solve` with right-hand side `k` and initial guess `x`.
src/vector/lis_vector.c:252-257, src/matrix/lis_matrix_ops.c:718-724 -/
inductive ScaleOp (R : Type)
  | fill (k : ℕ) (v : Arr R)
  | resetB (k : ℕ)
  | fillA (A : Csr R)
  | resetA
  | solve (k : ℕ) (x : Arr R)

/-- One operation; a solve also delivers its result. -/
def ScaleOp.run [Zero R] [Mul R] (inv rsq : R → R) (vjunk : ℕ → R) (exec : Csr R → Arr R → Arr R → Arr R)
    (c : ScaleSet) (s : ℕ) (S : SSys R) : ScaleOp R → Option (SSys R × Option (Arr R))
  | .fill k v => some (S.setB k v, none)
  | .resetB k => some (S.setBFlag k false, none)
  | .fillA A => some ({ S with A := A }, none)
  | .resetA => some ({ S with aFlag := false }, none)
  | .solve k x => do
    let r ← solveCall inv rsq vjunk exec c s k x S
    pure (r.1, some r.2)

/-- A history of operations with one solver object `s` whose settings do not change; the list of results of the solves. -/
def runHistory [Zero R] [Mul R] (inv rsq : R → R) (vjunk : ℕ → R) (exec : Csr R → Arr R → Arr R → Arr R)
    (c : ScaleSet) (s : ℕ) : List (ScaleOp R) → SSys R → Option (SSys R × List (Arr R))
  | [], S => some (S, [])
  | op :: ops, S => do
    let r ← op.run inv rsq vjunk exec c s S
    let q ← runHistory inv rsq vjunk exec c s ops r.1
    pure (q.1, (match r.2 with | some x => [x] | none => []) ++ q.2)

end Lis
