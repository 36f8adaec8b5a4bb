import Verif.Model.Assembly
import Mathlib.Algebra.Star.Basic
import Mathlib.Algebra.Field.Defs
import Mathlib.Order.Defs.LinearOrder

/-!
# Model of src/vector

Vector arguments are handles into a heap, so that passing the same vector twice is covered.  Default
precision (the `USE_QUAD_PRECISION` parts are not modelled); `NO_ERROR_CHECK` not defined; the
`USE_VEC_COMP` pragmas have no effect on the meaning.
-/

namespace Lis
variable {R S : Type}

/-- the fields of `LIS_VECTOR_STRUCT` used by the arithmetic. include/lis.h:513-537 -/
structure LVec (R : Type) where
  n : ℕ
  value : Arr R

/-- all vectors, by handle -/
abbrev Vecs (R : Type) := ℕ → LVec R

/-- `v->value[i]` -/
def vrd (h : Vecs R) (v i : ℕ) : Option R := (h v).value.rd i

/-- `v->value[i] = a` -/
def vwr (h : Vecs R) (v i : ℕ) (a : R) : Option (Vecs R) := do
  let b ← (h v).value.wr i a
  pure fun w => if w = v then ⟨(h v).n, b⟩ else h w

/-- `lis_vector_swap`, serial. src/vector/lis_vector_opv.c:67-102 -/
def vectorSwap (x y : ℕ) (h : Vecs R) : Option (Err × Vecs R) :=
  if (h x).n ≠ (h y).n then some (.illArg, h) else do
    let h ← loop 0 (h x).n h fun i h => do
      let t ← vrd h y i
      let a ← vrd h x i
      let h ← vwr h y i a
      vwr h x i t
    pure (.success, h)

/-- `lis_vector_copy`. src/vector/lis_vector_opv.c:109-143 -/
def vectorCopy (x y : ℕ) (h : Vecs R) : Option (Err × Vecs R) :=
  if (h x).n ≠ (h y).n then some (.illArg, h) else do
    let h ← loop 0 (h x).n h fun i h => do
      let a ← vrd h x i
      vwr h y i a
    pure (.success, h)

/-- `lis_vector_axpy`. src/vector/lis_vector_opv.c:149-183 -/
def vectorAxpy [Add R] [Mul R] (al : R) (x y : ℕ) (h : Vecs R) : Option (Err × Vecs R) :=
  if (h x).n ≠ (h y).n then some (.illArg, h) else do
    let h ← loop 0 (h x).n h fun i h => do
      let b ← vrd h y i
      let a ← vrd h x i
      vwr h y i (b + al * a)
    pure (.success, h)

/-- `lis_vector_xpay`. src/vector/lis_vector_opv.c:189-222 -/
def vectorXpay [Add R] [Mul R] (x : ℕ) (al : R) (y : ℕ) (h : Vecs R) : Option (Err × Vecs R) :=
  if (h x).n ≠ (h y).n then some (.illArg, h) else do
    let h ← loop 0 (h x).n h fun i h => do
      let a ← vrd h x i
      let b ← vrd h y i
      vwr h y i (a + al * b)
    pure (.success, h)

/-- `lis_vector_axpyz`. src/vector/lis_vector_opv.c:228-262 -/
def vectorAxpyz [Add R] [Mul R] (al : R) (x y z : ℕ) (h : Vecs R) : Option (Err × Vecs R) :=
  if (h x).n ≠ (h y).n ∨ (h x).n ≠ (h z).n then some (.illArg, h) else do
    let h ← loop 0 (h x).n h fun i h => do
      let a ← vrd h x i
      let b ← vrd h y i
      vwr h z i (al * a + b)
    pure (.success, h)

/-- `lis_vector_scale`. src/vector/lis_vector_opv.c:268-294 -/
def vectorScale [Mul R] (al : R) (x : ℕ) (h : Vecs R) : Option (Err × Vecs R) := do
  let h ← loop 0 (h x).n h fun i h => do
    let a ← vrd h x i
    vwr h x i (al * a)
  pure (.success, h)

/-- `lis_vector_pmul`. src/vector/lis_vector_opv.c:300-334 -/
def vectorPmul [Mul R] (x y z : ℕ) (h : Vecs R) : Option (Err × Vecs R) :=
  if (h x).n ≠ (h y).n ∨ (h x).n ≠ (h z).n then some (.illArg, h) else do
    let h ← loop 0 (h x).n h fun i h => do
      let a ← vrd h x i
      let b ← vrd h y i
      vwr h z i (a * b)
    pure (.success, h)

/-- `lis_vector_pdiv`. src/vector/lis_vector_opv.c:340-374 -/
def vectorPdiv [Div R] (x y z : ℕ) (h : Vecs R) : Option (Err × Vecs R) :=
  if (h x).n ≠ (h y).n ∨ (h x).n ≠ (h z).n then some (.illArg, h) else do
    let h ← loop 0 (h x).n h fun i h => do
      let a ← vrd h x i
      let b ← vrd h y i
      vwr h z i (a / b)
    pure (.success, h)

/-- `lis_vector_set_all`. src/vector/lis_vector_opv.c:380-406 -/
def vectorSetAll (al : R) (x : ℕ) (h : Vecs R) : Option (Err × Vecs R) := do
  let h ← loop 0 (h x).n h fun i h => vwr h x i al
  pure (.success, h)

/-- `lis_vector_abs` (`fabs` a parameter). src/vector/lis_vector_opv.c:412-436 -/
def vectorAbs (fabs : R → R) (x : ℕ) (h : Vecs R) : Option (Err × Vecs R) := do
  let h ← loop 0 (h x).n h fun i h => do
    let a ← vrd h x i
    vwr h x i (fabs a)
  pure (.success, h)

/-- `lis_vector_reciprocal`. src/vector/lis_vector_opv.c:442-466 -/
def vectorReciprocal [One R] [Div R] (x : ℕ) (h : Vecs R) : Option (Err × Vecs R) := do
  let h ← loop 0 (h x).n h fun i h => do
    let a ← vrd h x i
    vwr h x i (1 / a)
  pure (.success, h)

/-- `lis_vector_conjugate`; `star` is `conj` (the identity in the real build, where the C loop body is empty).
src/vector/lis_vector_opv.c:472-498 -/
def vectorConjugate [Star R] (x : ℕ) (h : Vecs R) : Option (Err × Vecs R) := do
  let h ← loop 0 (h x).n h fun i h => do
    let a ← vrd h x i
    vwr h x i (star a)
  pure (.success, h)

/-- `lis_vector_shift`. src/vector/lis_vector_opv.c:504-528 -/
def vectorShift [Sub R] (sigma : R) (x : ℕ) (h : Vecs R) : Option (Err × Vecs R) := do
  let h ← loop 0 (h x).n h fun i h => do
    let a ← vrd h x i
    vwr h x i (a - sigma)
  pure (.success, h)

/-! ### reductions -/

/-- the serial accumulation `s = 0; for(i=0;i<n;i++) s += f(i)`.
src/vector/lis_vector_ops.c:105-112, :181-188, :252-259, :317-323, :455-461 -/
def reduceSerial [Zero S] [Add S] (f : ℕ → Option S) (n : ℕ) : Option S :=
  loop 0 n 0 fun i s => do
    let a ← f i
    pure (s + a)

/-- one thread of the OpenMP accumulation: private `tmp = 0`, then `tmp += f(i)` for the iterations the schedule
gives this thread, in that order. src/vector/lis_vector_ops.c:84-98 -/
def reduceThread [Zero S] [Add S] (f : ℕ → Option S) (its : List ℕ) : Option S :=
  its.foldlM (fun s i => do let a ← f i; pure (s + a)) 0

/-- LIS_VEC_TMP_PADD. include/lis.h:228 -/
def vecTmpPadd : ℕ := 128

/-- the OpenMP accumulation: a team of `team` threads, thread `t` executes the iterations `sched t` and stores its
private sum in `lis_vec_tmp[t*LIS_VEC_TMP_PADD]`; then the first `nprocs = omp_get_max_threads()` cells are
summed.  The threads touch disjoint cells, so they are run one after the other here (see the C35 theorems for
interleavings). `tmp` is `lis_vec_tmp` with its old contents. src/vector/lis_vector_ops.c:82-103 (the same
text in nhdot, nrm2, nrm1, sum) -/
def reduceOmp [Zero S] [Add S] (f : ℕ → Option S) (nprocs team : ℕ) (sched : ℕ → List ℕ) (tmp : Arr S) :
    Option (S × Arr S) := do
  let tmp ← loop 0 team tmp fun t (tmp : Arr S) => do
    let v ← reduceThread f (sched t)
    tmp.wr (t * vecTmpPadd) v
  let s ← loop 0 nprocs 0 fun i s => do
    let v ← tmp.rd (i * vecTmpPadd)
    pure (s + v)
  pure (s, tmp)

/-- how the accumulation is executed: the serial loop, or a team of threads -/
structure OmpRun (S : Type) where
  nprocs : ℕ
  team : ℕ
  sched : ℕ → List ℕ
  tmp : Arr S

/-- accumulation over `n` elements in either build -/
def reduce [Zero S] [Add S] (run : Option (OmpRun S)) (f : ℕ → Option S) (n : ℕ) : Option S :=
  match run with
  | none => reduceSerial f n
  | some r => do
    let p ← reduceOmp f r.nprocs r.team r.sched r.tmp
    pure p.1

/-- `lis_vector_dot`; result in `*value` (`none` when not written). src/vector/lis_vector_ops.c:58-127 -/
def vectorDot [Zero R] [Add R] [Mul R] [Star R] (run : Option (OmpRun R)) (x y : ℕ) (h : Vecs R) :
    Option (Err × Option R) :=
  if (h x).n ≠ (h y).n then some (.illArg, none) else do
    let s ← reduce run (fun i => do
      let a ← vrd h x i
      let b ← vrd h y i
      pure (star a * b)) (h x).n
    pure (.success, some s)

/-- `lis_vector_nhdot`. src/vector/lis_vector_ops.c:134-203 -/
def vectorNhdot [Zero R] [Add R] [Mul R] (run : Option (OmpRun R)) (x y : ℕ) (h : Vecs R) :
    Option (Err × Option R) :=
  if (h x).n ≠ (h y).n then some (.illArg, none) else do
    let s ← reduce run (fun i => do
      let a ← vrd h x i
      let b ← vrd h y i
      pure (a * b)) (h x).n
    pure (.success, some s)

/-- `lis_vector_nrm2` (`sqrt` a parameter, including the conversion to LIS_REAL). src/vector/lis_vector_ops.c:210-271 -/
def vectorNrm2 [Zero R] [Add R] [Mul R] [Star R] (sqrt : R → S) (run : Option (OmpRun R)) (x : ℕ) (h : Vecs R) :
    Option (Err × Option S) := do
  let s ← reduce run (fun i => do
    let a ← vrd h x i
    let b ← vrd h x i
    pure (star a * b)) (h x).n
  pure (.success, some (sqrt s))

/-- `lis_vector_nrm1` (`fabs` a parameter). src/vector/lis_vector_ops.c:278-337 -/
def vectorNrm1 [Zero S] [Add S] (fabs : R → S) (run : Option (OmpRun S)) (x : ℕ) (h : Vecs R) :
    Option (Err × Option S) := do
  let s ← reduce run (fun i => do
    let a ← vrd h x i
    pure (fabs a)) (h x).n
  pure (.success, some s)

/-- `lis_vector_sum`. src/vector/lis_vector_ops.c:418-474 -/
def vectorSum [Zero R] [Add R] (run : Option (OmpRun R)) (x : ℕ) (h : Vecs R) : Option (Err × Option R) := do
  let s ← reduce run (fun i => vrd h x i) (h x).n
  pure (.success, some s)

/-- `lis_vector_nrmi`, serial. src/vector/lis_vector_ops.c:344-411 -/
def vectorNrmi [Zero S] [LinearOrder S] (fabs : R → S) (x : ℕ) (h : Vecs R) : Option (Err × Option S) := do
  let s ← loop 0 (h x).n 0 fun i s => do
    let a ← vrd h x i
    if fabs a > s then pure (fabs a) else pure s
  pure (.success, some s)

/-- `lis_vector_nrmi`, OpenMP: the private `tmp` of thread `t` is not initialised inside the parallel region (`junk
t`); the shared `tmp = 0.0` set before the region is what the final loop starts from.
src/vector/lis_vector_ops.c:364-392 -/
def vectorNrmiOmp [Zero S] [LinearOrder S] (fabs : R → S) (r : OmpRun S) (junk : ℕ → S) (x : ℕ) (h : Vecs R) :
    Option (Err × Option S) := do
  let tmp ← loop 0 r.team r.tmp fun t (tmp : Arr S) => do
    let v ← (r.sched t).foldlM (fun s i => do
      let a ← vrd h x i
      if fabs a > s then pure (fabs a) else pure s) (junk t)
    tmp.wr (t * vecTmpPadd) v
  let s ← loop 0 r.nprocs 0 fun i s => do
    let v ← tmp.rd (i * vecTmpPadd)
    if v > s then pure v else pure s
  pure (.success, some s)

/-- The MPI end of dot, nhdot, nrm2, nrm1, sum: `MPI_Allreduce(.., MPI_SUM, comm)` delivers the sum of the ranks'
local results, which `post` (identity or `sqrt`) turns into `*value`.  `none` on a rank = undefined there.
src/vector/lis_vector_ops.c:114-118, :190-194, :261-265, :325-329, :463-467 -/
def allreduceSum [AddCommMonoid R] (post : R → S) (p : ℕ) (loc : ℕ → Option R) : Option S := do
  let s ← loop 0 p 0 fun r s => do
    let v ← loc r
    pure (s + v)
  pure (post s)

/-! ### element access -/

/-- fields of a vector used by element access.  `base`, `ie` are `v->is`, `v->ie`; `null` is
`status == LIS_VECTOR_NULL`. include/lis.h:513-537 -/
structure AVec (R : Type) where
  n : ℕ
  gn : ℕ
  np : ℕ
  base : ℕ
  ie : ℕ
  origin : Bool
  null : Bool
  value : Arr R

/-- `lis_vector_create`: no value block. src/vector/lis_vector.c:68-152 -/
def avecCreate (junk : ℕ → R) : AVec R := ⟨0, 0, 0, 0, 0, false, true, ⟨0, junk⟩⟩

/-- `lis_vector_set_size`, serial, default precision: malloc and zero. src/vector/lis_vector.c:156-250 with
`lis_ranges_create` src/system/lis_init.c:386-455 -/
def avecSetSize [Zero R] (junk : ℕ → R) (localN globalN : ℤ) (v : AVec R) : Option (Err × AVec R) :=
  if globalN > 0 ∧ localN > globalN then some (.illArg, v)
  else if localN < 0 ∨ globalN < 0 then some (.illArg, v)
  else do
    let n := (if localN = 0 then globalN else localN).toNat
    let a ← loop 0 n (.malloc n junk) fun i (a : Arr R) => a.wr i 0
    pure (.success, { v with n := n, gn := n, np := n, base := 0, ie := n, null := false, value := a })

/-- `lis_vector_set_value` (and `lis_vector_set_value0`, same text). src/vector/lis_vector.c:561-605, :514-557 -/
def avecSetValue [Add R] (junk : ℕ → R) (flag i : ℤ) (a : R) (v : AVec R) : Option (Err × AVec R) :=
  let i := if v.origin then i - 1 else i
  if i < v.base ∨ i ≥ v.ie then some (.illArg, v) else do
    let v := if v.null then { v with value := .malloc v.np junk, null := false } else v
    if flag = 0 then do
      let b ← v.value.wrI (i - v.base) a
      pure (.success, { v with value := b })
    else do
      let o ← v.value.rdI (i - v.base)
      let b ← v.value.wrI (i - v.base) (o + a)
      pure (.success, { v with value := b })

/-- `lis_vector_get_value`; the value is `none` when `*value` is not written. src/vector/lis_vector.c:783-810 -/
def avecGetValue (i : ℤ) (v : AVec R) : Option (Err × Option R) :=
  let i := if v.origin then i - 1 else i
  if i < v.base ∨ i ≥ v.ie then some (.illArg, none) else do
    let a ← v.value.rdI (i - v.base)
    pure (.success, some a)

/-- the loop of `lis_vector_set_values` / `set_values2` over the `(index, value)` pairs still to do; `shift` is what
is added to the index when `origin` is set (`ii--` in the insert branch, `ii++` in the add branch).  Returns at
the first bad index, keeping the elements already written. src/vector/lis_vector.c:631-648, :652-669 -/
def avecSetLoop [Add R] (flag : ℤ) (v : AVec R) : List (ℤ × R) → Option (Err × AVec R)
  | [] => some (.success, v)
  | (ii, a) :: rest =>
    let ii := if v.origin then (if flag = 0 then ii - 1 else ii + 1) else ii
    if ii < v.base ∨ ii ≥ v.ie then some (.illArg, v)
    else if flag = 0 then do
      let b ← v.value.wrI (ii - v.base) a
      avecSetLoop flag { v with value := b } rest
    else do
      let o ← v.value.rdI (ii - v.base)
      let b ← v.value.wrI (ii - v.base) (o + a)
      avecSetLoop flag { v with value := b } rest

/-- `lis_vector_set_values`; `l` are the first `count` elements of `index[]`, `value[]`.
src/vector/lis_vector.c:609-674 -/
def avecSetValues [Add R] (junk : ℕ → R) (flag : ℤ) (l : List (ℤ × R)) (v : AVec R) : Option (Err × AVec R) :=
  avecSetLoop flag (if v.null then { v with value := .malloc v.np junk, null := false } else v) l

/-- `lis_vector_set_values2`: `start` is overwritten by the loop counter, so it has no effect; `l` are the first
`count` elements of `value[]`. src/vector/lis_vector.c:678-743 -/
def avecSetValues2 [Add R] (junk : ℕ → R) (flag _start : ℤ) (l : List R) (v : AVec R) : Option (Err × AVec R) :=
  avecSetLoop flag (if v.null then { v with value := .malloc v.np junk, null := false } else v)
    (l.zipIdx.map fun p => ((p.2 : ℤ), p.1))

/-- `lis_vector_get_values` into the user's array `out`. src/vector/lis_vector.c:814-850 -/
def avecGetValues (start : ℤ) (count : ℕ) (out : Arr R) (v : AVec R) : Option (Err × Arr R) :=
  let start := if v.origin then start - 1 else start
  if start < v.base ∨ start ≥ v.ie then some (.illArg, out)
  else if start - v.base + count > v.n then some (.illArg, out)
  else do
    let out ← loop 0 count out fun i (out : Arr R) => do
      let a ← v.value.rdI (start - v.base + i)
      out.wr i a
    pure (.success, out)

/-- `lis_vector_scatter`, serial. src/vector/lis_vector.c:985-1006 -/
def avecScatter (value : Arr R) (v : AVec R) : Option (Err × AVec R) := do
  let b ← loop 0 v.n v.value fun i (b : Arr R) => do
    let a ← value.rd i
    b.wr i a
  pure (.success, { v with value := b })

/-- `lis_vector_gather`, serial. src/vector/lis_vector.c:1041-1063 -/
def avecGather (v : AVec R) (value : Arr R) : Option (Err × Arr R) := do
  let value ← loop 0 v.n value fun i (b : Arr R) => do
    let a ← v.value.rd i
    b.wr i a
  pure (.success, value)

end Lis
