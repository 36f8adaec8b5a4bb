import Mathlib.Data.Multiset.AddSub
import Mathlib.Data.Multiset.Basic

/-!
# Who frees what: the memory of a solver handle over a history of calls

`lis_solver_create`, `lis_solve`, `lis_solve_setup`, `lis_solve_kernel`, `lis_solver_work_destroy`, `lis_solver_destroy`
(src/solver/lis_solver.c:293-450 and :441-953), reduced to allocation and release.  Simplifications: a vector, a matrix,
a diagonal matrix and a preconditioner with everything it owns are one block each; the numbers computed are not modelled;
which of the checks and allocations of a call fail is an input (`Run`).  `none` is a double free or a use after free.
The build without `USE_QUAD_PRECISION`.
-/

namespace Lis

/-- the heap: the blocks in use; blocks are named by a counter, so a name is never used again -/
structure Heap where
  live : Multiset ℕ
  next : ℕ

namespace Heap

/-- a successful `lis_malloc` -/
def alloc (h : Heap) : ℕ × Heap := (h.next, ⟨h.next ::ₘ h.live, h.next + 1⟩)

/-- `lis_free`, and `lis_vector_destroy`, … of a block in use: a NULL pointer is accepted, a block that is not in use is an
error -/
def free (h : Heap) : Option ℕ → Option Heap
  | none => some h
  | some a => if a ∈ h.live then some ⟨h.live.erase a, h.next⟩ else none

/-- `lis_vector_destroy`: does nothing unless `lis_is_malloc` finds the block (src/vector/lis_vector.c:353-365,
src/system/lis_memory.c:310-325). Simplification: an address is not used again, and no allocation has failed before (a failed
one hides the later ones from `lis_is_malloc`: `Model/Memory.lean`) -/
def destroy (h : Heap) (a : ℕ) : Heap := if a ∈ h.live then ⟨h.live.erase a, h.next⟩ else h

/-- `for(i=0;i<worklen;i++) lis_vector_destroy(work[i]);` -/
def destroyAll (h : Heap) : List ℕ → Heap
  | [] => h
  | a :: l => (h.destroy a).destroyAll l

/-- the vectors of `lis_*_malloc_work`: `for(i=0;i<worklen;i++) lis_vector_duplicate(...)` -/
def allocN (h : Heap) : ℕ → List ℕ × Heap
  | 0 => ([], h)
  | n + 1 =>
    let (a, h) := h.alloc
    let (l, h) := h.allocN n
    (a :: l, h)

end Heap

/-- the pointers of `struct LIS_SOLVER_STRUCT` that own memory, and the flag `setup`; `executed` counts the calls of
`lis_solver_execute[]` (ghost) -/
structure SolverMem where
  self : ℕ
  d : Option ℕ
  Ah : Option ℕ
  WD : Option ℕ
  rhistory : Option ℕ
  work : Option (ℕ × List ℕ)
  setup : Bool
  executed : ℕ

/-- the three ways `lis_solve_kernel` treats scaling: not at all; with the vector `solver->d` (`-scale`, the stationary
solvers, `-p is`); with a block diagonal `solver->WD` (`-scale jacobi -storage bsr`) -/
inductive Scaling
  | no | diag | block
deriving DecidableEq

/-- one call of `lis_solve`: which steps succeed -/
structure Run where
  /-- `lis_precon_create` -/
  preconOk : Bool
  /-- the checks of `lis_solve_kernel`, lines 479-535 -/
  paramOk : Bool
  /-- the allocation of the iterate, of the residual history, of `solver->d` -/
  xxOk : Bool
  rhistOk : Bool
  scaling : Scaling
  dOk : Bool
  /-- conversion, splitting and the allocation of `WD` in the block branch -/
  blockOk : Bool
  /-- `lis_matrix_convert_self` -/
  convOk : Bool
  /-- `lis_solver_malloc_work[]` -/
  workOk : Bool
  nwork : ℕ
  /-- solver BiCG with `-use_at true` -/
  useAt : Bool
  /-- solver MINRES and the iteration ends with LIS_MAXITER -/
  minresMaxiter : Bool

/-- `lis_solver_create`. src/solver/lis_solver.c:293-310, lis_solver_init :206-216, :288 -/
def solverCreate (h : Heap) : SolverMem × Heap :=
  let (p, h) := h.alloc
  (⟨p, none, none, none, none, none, false, 0⟩, h)

/-- `lis_solver_work_destroy`. src/solver/lis_solver.c:315-331 -/
def workDestroy (s : SolverMem) (h : Heap) : Option (SolverMem × Heap) :=
  match s.work with
  | none => some (s, h)
  | some (w, vs) => do
    let h := h.destroyAll vs
    let h ← h.free (some w)
    pure ({ s with work := none }, h)

/-- `lis_solver_destroy`; `WD` is not freed. src/solver/lis_solver.c:335-350 -/
def solverDestroy (s : SolverMem) (h : Heap) : Option Heap := do
  let (s, h) ← workDestroy s h
  let h ← h.free s.d
  let h ← h.free s.Ah
  let h ← h.free s.rhistory
  h.free (some s.self)

/-- the scaling part of `lis_solve_kernel`; the flag says whether the function goes on.
src/solver/lis_solver.c:612-719 -/
def solveScaling (r : Run) (s : SolverMem) (h : Heap) : Option (Bool × SolverMem × Heap) :=
  match r.scaling with
  | .no => some (true, s, h)
  | .diag =>
    match s.d with
    | some _ => some (true, s, h)
    | none =>
      if r.dOk then
        let (p, h) := h.alloc
        some (true, { s with d := some p }, h)
      else some (false, s, h)
  | .block =>
    if r.blockOk then do
      let (wd, h) := h.alloc
      let s := { s with WD := some wd }
      let (t, h) := h.alloc
      let h ← h.free (some t)
      pure (true, s, h)
    else some (false, s, h)

/-- `lis_solver_execute[nsolver](solver)`: reads the work vectors; MINRES destroys all of them itself when it runs out of
iterations. src/solver/lis_solver_minres.c:245-251 -/
def solveExecute (r : Run) (s : SolverMem) (h : Heap) : Option (SolverMem × Heap) := do
  let h ← match s.work with
    | none => none
    | some (_, vs) => some (if r.minresMaxiter then h.destroyAll vs else h)
  pure ({ s with executed := s.executed + 1 }, h)

/-- `lis_solve_kernel` from the creation of the work vectors on. src/solver/lis_solver.c:826-953 -/
def solveMain (r : Run) (precon xx rh : ℕ) (s : SolverMem) (h : Heap) : Option (Bool × SolverMem × Heap) :=
  if r.workOk then do
    let (w, h) := h.alloc
    let (vs, h) := h.allocN r.nwork
    let s := { s with work := some (w, vs) }
    let (s, h) := if r.useAt then
        let (p, h) := h.alloc
        ({ s with Ah := some p }, h)
      else (s, h)
    let s := { s with rhistory := some rh }
    let (s, h) ← if s.setup then some (s, h) else solveExecute r s h
    let (s, h) ← workDestroy s h
    let (t, h) := h.alloc
    let h ← h.free (some t)
    let h ← h.free (some xx)
    some (false, s, h)
  else do
    let h ← h.free (some xx)
    let h ← h.free (some precon)
    some (true, s, h)

/-- `lis_solve_kernel` from the allocation of the residual history on: scaling, conversion.
src/solver/lis_solver.c:596-760 -/
def solveRest (r : Run) (precon xx : ℕ) (s : SolverMem) (h : Heap) : Option (Bool × SolverMem × Heap) :=
  if r.rhistOk then do
    let (rh, h) := h.alloc
    let (go, s, h) ← solveScaling r s h
    if go then
      if r.convOk then solveMain r precon xx rh s h
      else do
        let h ← h.free (some xx)
        let (s, h) ← workDestroy s h
        let h ← h.free (some rh)
        some (true, s, h)
    else some (true, s, h)
  else do
    let h ← h.free (some xx)
    some (false, s, h)               -- returns `err`, which is LIS_SUCCESS here

/-- `lis_solve_kernel`; the first component is `true` for a return value other than `LIS_SUCCESS`.  `solver->rhistory` is
freed and keeps its value until the end of the function. src/solver/lis_solver.c:441-953 -/
def solveKernel (r : Run) (precon : ℕ) (s : SolverMem) (h : Heap) : Option (Bool × SolverMem × Heap) :=
  if r.paramOk && r.xxOk then do
    let (xx, h) := h.alloc
    let h ← h.free s.rhistory
    solveRest r precon xx s h
  else some (true, s, h)

/-- `lis_solve`. src/solver/lis_solver.c:367-405.  (`lis_precon_create` destroys what it built when it fails.) -/
def solve (r : Run) (s : SolverMem) (h : Heap) : Option (Bool × SolverMem × Heap) :=
  if r.preconOk then do
    let (p, h) := h.alloc
    let (err, s, h) ← solveKernel r p s h
    if err then do
      let (s, h) ← workDestroy s h
      some (true, s, h)
    else do
      let h ← h.free (some p)
      some (false, s, h)
  else do
    let (s, h) ← workDestroy s h
    some (true, s, h)

/-- `lis_solve_setup`: `setup` is never reset. src/solver/lis_solver.c:409-437 -/
def solveSetup (r : Run) (s : SolverMem) (h : Heap) : Option (Bool × SolverMem × Heap) := do
  let (b, h) := h.alloc
  let (x, h) := h.alloc
  let (err, s, h) ← solve r { s with setup := true } h
  if err then do
    let (s, h) ← workDestroy s h
    some (true, s, h)
  else do
    let h ← h.free (some b)
    let h ← h.free (some x)
    some (false, s, h)

/-- a call made on an existing handle -/
inductive SolverCall
  | solve (r : Run)
  | setup (r : Run)

def SolverCall.exec (c : SolverCall) (s : SolverMem) (h : Heap) : Option (Bool × SolverMem × Heap) :=
  match c with
  | .solve r => Lis.solve r s h
  | .setup r => solveSetup r s h

/-- a sequence of calls; the return values are collected (`true` = an error code) -/
def runCalls : List SolverCall → SolverMem → Heap → Option (List Bool × SolverMem × Heap)
  | [], s, h => some ([], s, h)
  | c :: cs, s, h => do
    let (e, s, h) ← c.exec s h
    let (es, s, h) ← runCalls cs s h
    pure (e :: es, s, h)

/-- the life of one handle: create, any calls, destroy -/
def handleLife (cs : List SolverCall) (h : Heap) : Option Heap := do
  let (s, h) := solverCreate h
  let (_, s, h) ← runCalls cs s h
  solverDestroy s h

end Lis
