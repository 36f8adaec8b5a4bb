import Verif.Model.Lifetime

/-!
# Who frees what: the memory of an eigensolver handle over a history of calls

`lis_esolver_create`, `lis_gesolve`/`lis_esolve`, `lis_*_malloc_work`, `lis_esolver_work_destroy`, `lis_esolver_destroy`
(src/esolver/lis_esolver.c:145-262, 296-665), reduced to allocation and release, on the heap of `Model/Lifetime.lean` with the
same simplifications: a vector is one block, which steps fail is an input of a call, a failing allocation leaves the registry of
`lis_malloc` intact. `none` is a double free, a use after free or an access outside an array.
-/

namespace Lis

/-- the pointers of `struct LIS_ESOLVER_STRUCT` that own memory, and the two settings `lis_esolver_destroy` looks at. An element
of the array `evector` is a block, or (`none`) some other bit pattern. -/
structure EsolverMem where
  self : ℕ
  evalue : Option ℕ
  resid : Option ℕ
  iter : Option ℕ
  iter2 : Option ℕ
  rhistory : Option ℕ
  evector : Option (ℕ × List (Option ℕ))
  work : Option (ℕ × List ℕ)
  /-- the option `-e` is SI, LI or AI -/
  sub : Bool
  /-- the option `-ss` -/
  ss : ℕ

/-- the allocations of `lis_gesolve`, in program order -/
inductive EStep
  | evalue | resid | iter | iter2 | xx | evector | rhistory | work
  deriving DecidableEq

/-- one call of `lis_esolve`/`lis_gesolve` -/
structure ERun where
  /-- the checks of lines 322-444 -/
  paramOk : Bool
  /-- the allocation that fails, if one does -/
  fail : Option EStep
  /-- number of work vectors -/
  nwork : ℕ
  /-- number of vectors the solver puts into `evector`: `ss` for the subspace methods and their generalized forms (fewer when
  they stop with an error, none with `-rval`), otherwise none -/
  nvec : ℕ
  /-- the contents of the fresh array `evector` -/
  junk : List (Option ℕ)

/-- `lis_esolver_create`, `lis_esolver_init`. src/esolver/lis_esolver.c:145-207 -/
def esolverCreate (h : Heap) : EsolverMem × Heap :=
  let (p, h) := h.alloc
  (⟨p, none, none, none, none, none, none, none, false, 1⟩, h)

/-- `lis_esolver_work_destroy`. src/esolver/lis_esolver.c:209-226 -/
def eworkDestroy (m : EsolverMem) (h : Heap) : Option (EsolverMem × Heap) :=
  match m.work with
  | none => some (m, h)
  | some (w, vs) => do
    let h := h.destroyAll vs
    let h ← h.free (some w)
    pure ({ m with work := none }, h)

/-- `for(i=0;i<ss+2;i++) lis_vector_destroy(esolver->evector[i]);` with `n` elements to go, over the array.
src/esolver/lis_esolver.c:250-251 -/
def destroySlots (h : Heap) : ℕ → List (Option ℕ) → Option Heap
  | 0, _ => some h
  | _ + 1, [] => none
  | n + 1, none :: l => destroySlots h n l
  | n + 1, some a :: l => destroySlots (h.destroy a) n l

/-- `lis_esolver_destroy`. src/esolver/lis_esolver.c:228-262 -/
def esolverDestroy (m : EsolverMem) (h : Heap) : Option Heap := do
  let (m, h) ← eworkDestroy m h
  let h ← h.free m.rhistory
  let h ← h.free m.evalue
  let h ← h.free m.resid
  let h ← h.free m.iter
  let h ← h.free m.iter2
  let h ← match m.evector with
    | none => some h
    | some (p, sl) => do
      let h ← if m.sub then destroySlots h (m.ss + 2) sl else some h
      h.free (some p)
  h.free (some m.self)

/-- the array `evector` itself; the vectors in it are not destroyed. src/esolver/lis_esolver.c:530 -/
def EsolverMem.evecArr (m : EsolverMem) : Option ℕ := m.evector.map (·.1)

/-- `lis_*_malloc_work` and the solver; `xx` is the iterate. src/esolver/lis_esolver.c:597-661; the old work vectors are
overwritten: e.g. src/esolver/lis_esolver_pi.c:84-130 -/
def egesolveWork (r : ERun) (xx : ℕ) (m : EsolverMem) (h : Heap) : Option (Bool × EsolverMem × Heap) :=
  if r.fail = some .work then do
    let h ← h.free (some xx)
    some (true, m, h)
  else do
    let (w, h) := h.alloc
    let (vs, h) := h.allocN r.nwork
    let m := { m with work := some (w, vs) }
    let (us, h) := h.allocN r.nvec
    let (p, sl) ← m.evector
    let m := { m with evector := some (p, us.map some ++ sl.drop us.length) }
    let h ← if us.length ≤ sl.length then some h else none
    let h ← h.free (some xx)
    some (false, m, h)

/-- the residual history, and the assignment of all pointers. src/esolver/lis_esolver.c:540-580 -/
def egesolveHist (r : ERun) (ev re it it2 xx evec : ℕ) (m : EsolverMem) (h : Heap) : Option (Bool × EsolverMem × Heap) := do
  let h ← h.free m.rhistory
  if r.fail = some .rhistory then do
    let h ← h.free (some xx)
    some (false, m, h)                -- `err` is LIS_SUCCESS here
  else do
    let (rh, h) := h.alloc
    let m := { m with
      evalue := some ev
      resid := some re
      iter := some it
      iter2 := some it2
      rhistory := some rh
      evector := some (evec, r.junk) }
    egesolveWork r xx m h

/-- the initial vector and the array of eigenvectors. src/esolver/lis_esolver.c:487-538 -/
def egesolveVecs (r : ERun) (ev re it it2 : ℕ) (m : EsolverMem) (h : Heap) : Option (Bool × EsolverMem × Heap) :=
  if r.fail = some .xx then some (true, m, h)
  else do
    let (xx, h) := h.alloc
    let h ← h.free m.evecArr
    if r.fail = some .evector then some (false, m, h)
    else do
      let (evec, h) := h.alloc
      egesolveHist r ev re it it2 xx evec m h

/-- `lis_gesolve`; the first component is `true` for a return value other than `LIS_SUCCESS`. A failing `lis_malloc` of one of
the arrays returns `err`, which is `LIS_SUCCESS`, and leaves the pointers of the handle as they were.
src/esolver/lis_esolver.c:296-665 -/
def egesolve (r : ERun) (m : EsolverMem) (h : Heap) : Option (Bool × EsolverMem × Heap) :=
  if !r.paramOk then some (true, m, h)
  else do
    let h ← h.free m.evalue
    if r.fail = some .evalue then some (false, m, h) else
    let (ev, h) := h.alloc
    let h ← h.free m.resid
    if r.fail = some .resid then some (false, m, h) else
    let (re, h) := h.alloc
    let h ← h.free m.iter
    if r.fail = some .iter then some (false, m, h) else
    let (it, h) := h.alloc
    let h ← h.free m.iter2
    if r.fail = some .iter2 then some (false, m, h) else
    let (it2, h) := h.alloc
    egesolveVecs r ev re it it2 m h

/-- a call made on an existing handle: the options are changed, or it is run -/
inductive EsolverCall
  | opt (sub : Bool) (ss : ℕ)
  | run (r : ERun)

def EsolverCall.exec (c : EsolverCall) (m : EsolverMem) (h : Heap) : Option (Bool × EsolverMem × Heap) :=
  match c with
  | .opt sub ss => some (false, { m with sub := sub, ss := ss }, h)
  | .run r => egesolve r m h

def runECalls : List EsolverCall → EsolverMem → Heap → Option (List Bool × EsolverMem × Heap)
  | [], m, h => some ([], m, h)
  | c :: cs, m, h => do
    let (e, m, h) ← c.exec m h
    let (es, m, h) ← runECalls cs m h
    pure (e :: es, m, h)

/-- the life of one handle: create, any calls, destroy -/
def ehandleLife (cs : List EsolverCall) (h : Heap) : Option Heap := do
  let (m, h) := esolverCreate h
  let (_, m, h) ← runECalls cs m h
  esolverDestroy m h

end Lis
