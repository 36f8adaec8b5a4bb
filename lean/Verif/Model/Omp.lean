import Verif.Model.Matvec1
import Verif.Model.Matvec2
import Verif.Model.Vector
import Verif.Model.Matvec3
import Verif.Model.Ranges

/-!
# Threads over shared memory: the OpenMP code paths

The `#ifdef _OPENMP` branches.  A parallel region is run by a team of threads over a shared memory; one step is
one access to a shared cell by one thread, so every interleaving of the accesses is an execution.  (Sequentially
consistent memory: for programs without data races, which is what the positive theorems establish, C11 gives
exactly these executions.)  Variables in a `private` clause are Lean variables of the thread; the arrays of the
matrix are only read, and are read without a step; everything else is shared.
-/

namespace Lis
variable {V α β : Type}

/-- the shared cells: blocks, by number -/
abbrev Mem (V : Type) := ℕ → Arr V

/-- `a[i] = v` (no bounds check) -/
def Mem.set (m : Mem V) (a i : ℕ) (v : V) : Mem V := fun b => if b = a then (m a).set i v else m b

/-- one thread: return, undefined behaviour, read a shared cell, write a shared cell, wait at a barrier -/
inductive Thr (V α : Type) where
  | ret (x : α)
  | fail
  | rd (a i : ℕ) (k : V → Thr V α)
  | wr (a i : ℕ) (v : V) (k : Thr V α)
  | bar (k : Thr V α)

namespace Thr

def bind : Thr V α → (α → Thr V β) → Thr V β
  | ret x, f => f x
  | fail, _ => fail
  | rd a i k, f => rd a i fun v => bind (k v) f
  | wr a i v k, f => wr a i v (bind k f)
  | bar k, f => bar (bind k f)

instance : Monad (Thr V) where
  pure := ret
  bind := bind

/-- an access to a block that no thread writes (the arrays of the matrix) -/
def lift : Option α → Thr V α
  | some x => ret x
  | none => fail

/-- read / write / barrier as statements -/
def get (a i : ℕ) : Thr V V := rd a i ret
def put (a i : ℕ) (v : V) : Thr V Unit := wr a i v (ret ())
def barrier : Thr V Unit := bar (ret ())

/-- the iterations `l` of a loop, in that order -/
def forL {σ : Type} : List ℕ → σ → (ℕ → σ → Thr V σ) → Thr V σ
  | [], s, _ => ret s
  | i :: l, s, f => do
    let s ← f i s
    forL l s f

/-- `for(i=lo;i<hi;i++) s = f(i,s);` -/
def for' {σ : Type} (lo hi : ℕ) (s : σ) (f : ℕ → σ → Thr V σ) : Thr V σ :=
  forL (List.range' lo (hi - lo)) s f

end Thr

/-- the team: the shared memory and where each thread is -/
structure Team (V : Type) where
  mem : Mem V
  thr : ℕ → Thr V Unit

/-- thread `t` continues with `p` -/
def Team.cont (c : Team V) (t : ℕ) (p : Thr V Unit) : Team V := ⟨c.mem, fun s => if s = t then p else c.thr s⟩

/-- a step of the team of `T` threads: one access by one thread, or all threads leave a barrier -/
inductive Team.Step (T : ℕ) : Team V → Team V → Prop where
  | rd (c : Team V) (t a i k) : t < T → c.thr t = .rd a i k → i < (c.mem a).size →
      Step T c (c.cont t (k ((c.mem a).get i)))
  | wr (c : Team V) (t a i v k) : t < T → c.thr t = .wr a i v k → i < (c.mem a).size →
      Step T c { c.cont t k with mem := c.mem.set a i v }
  | rdOob (c : Team V) (t a i k) : t < T → c.thr t = .rd a i k → ¬ i < (c.mem a).size → Step T c (c.cont t .fail)
  | wrOob (c : Team V) (t a i v k) : t < T → c.thr t = .wr a i v k → ¬ i < (c.mem a).size → Step T c (c.cont t .fail)
  | bar (c : Team V) (k : ℕ → Thr V Unit) : 0 < T → (∀ t, t < T → c.thr t = .bar (k t)) →
      Step T c ⟨c.mem, fun t => if t < T then k t else c.thr t⟩

/-- all threads have reached the end of the region -/
def Team.Done (T : ℕ) (c : Team V) : Prop := ∀ t, t < T → c.thr t = .ret ()

/-- every interleaving ends, without undefined behaviour or deadlock, and the memory then satisfies `φ` -/
inductive Team.Always (T : ℕ) (φ : Mem V → Prop) : Team V → Prop where
  | mk (c : Team V) : (c.Done T → φ c.mem) → (¬ c.Done T → ∃ d, c.Step T d) → (∀ d, c.Step T d → Always T φ d) →
      Always T φ c

/-- some interleaving of steps -/
inductive Team.Steps (T : ℕ) : Team V → Team V → Prop where
  | nil (c : Team V) : Steps T c c
  | cons {c d e : Team V} : c.Step T d → Steps T d e → Steps T c e

/-- `#pragma omp parallel`: thread `t` of the team runs `p t` -/
def ompParallel (T : ℕ) (p : ℕ → Thr V Unit) (m : Mem V) (φ : Mem V → Prop) : Prop :=
  Team.Always T φ ⟨m, p⟩

/-- `#pragma omp for`: thread `t` runs the iterations that the schedule gives it -/
def ompFor (sched : ℕ → List ℕ) (body : ℕ → ℕ → Thr V Unit) (t : ℕ) : Thr V Unit :=
  Thr.forL (sched t) () fun i _ => body t i

/-! ### kernels; block 0 is `x`, block 1 is `y`, block 2 is the buffer `w` -/

section kernels
variable {R : Type} [Add R] [Mul R] [Zero R]

/-- `for(j=js;j<je;j++) t += c(value[j])*x[index[j]]`.
src/matvec/lis_matvec_csr.c:71-83, :100-106, src/matvec/lis_matvec_csc.c:180-184 -/
def accRowThr (c : R → R) (index : Arr ℕ) (value : Arr R) (js je : ℕ) (t0 : R) : Thr R R :=
  Thr.for' js je t0 fun j t => do
    let jj ← Thr.lift (index.rd j)
    let v ← Thr.lift (value.rd j)
    let xj ← Thr.get 0 jj
    pure (t + c v * xj)

/-- one iteration of the loop of `lis_matvec_csr`, unsplit. src/matvec/lis_matvec_csr.c:95-108 -/
def matvecCsrIter (A : Csr R) (i : ℕ) : Thr R Unit := do
  let js ← Thr.lift (A.ptr.rd i)
  let je ← Thr.lift (A.ptr.rd (i + 1))
  let t ← accRowThr id A.index A.value js je 0
  Thr.put 1 i t

/-- `lis_matvec_csr`, unsplit, OpenMP: thread `t`. src/matvec/lis_matvec_csr.c:92-108 -/
def matvecCsrOmp (A : Csr R) (sched : ℕ → List ℕ) : ℕ → Thr R Unit :=
  ompFor sched fun _ i => matvecCsrIter A i

/-- one iteration of the loop of `lis_matvec_csr`, split. src/matvec/lis_matvec_csr.c:67-85 -/
def matvecSplitCsrIter (A : SplitCsr R) (i : ℕ) : Thr R Unit := do
  let d ← Thr.lift (A.D.rd i)
  let xi ← Thr.get 0 i
  let ls ← Thr.lift (A.L.ptr.rd i)
  let le ← Thr.lift (A.L.ptr.rd (i + 1))
  let t ← accRowThr id A.L.index A.L.value ls le (d * xi)
  let us ← Thr.lift (A.U.ptr.rd i)
  let ue ← Thr.lift (A.U.ptr.rd (i + 1))
  let t ← accRowThr id A.U.index A.U.value us ue t
  Thr.put 1 i t

/-- `lis_matvec_csr`, split, OpenMP: thread `t`. src/matvec/lis_matvec_csr.c:64-86 -/
def matvecSplitCsrOmp (A : SplitCsr R) (sched : ℕ → List ℕ) : ℕ → Thr R Unit :=
  ompFor sched fun _ i => matvecSplitCsrIter A i

/-- `memset( &w[j*np], 0, np*sizeof(LIS_SCALAR) )`. src/matvec/lis_matvec_csr.c:194 -/
def zeroBlockThr (np j : ℕ) : Thr R Unit :=
  Thr.for' 0 np () fun i _ => Thr.put 2 (j * np + i) 0

/-- `for(j=js;j<je;j++) w[k*np+index[j]] += c(value[j])*t`. src/matvec/lis_matvec_csr.c:202-206 -/
def scatterThr (c : R → R) (np : ℕ) (index : Arr ℕ) (value : Arr R) (t : R) (js je k : ℕ) : Thr R Unit :=
  Thr.for' js je () fun j _ => do
    let jj ← Thr.lift (index.rd j)
    let v ← Thr.lift (value.rd j)
    let w ← Thr.get 2 (k * np + jj)
    Thr.put 2 (k * np + jj) (w + c v * t)

/-- `t = 0.0; for(j=0;j<nprocs;j++) t += w[j*np+i];`. src/matvec/lis_matvec_csr.c:211-215 -/
def gatherThr (nprocs np i : ℕ) : Thr R R :=
  Thr.for' 0 nprocs 0 fun j t => do
    let w ← Thr.get 2 (j * np + i)
    pure (t + w)

/-- the buffered product shared by `lis_matvech_csr` and `lis_matvec_csc`: clear the buffers, scatter row (column)
`i < rows` into the buffer of the thread, sum the buffers into `y[i]`, `i < cols`; each `omp for` ends with a
barrier; thread `k`.  `nprocs` is `omp_get_max_threads()`, the team may be smaller.
src/matvec/lis_matvec_csr.c:187-220, src/matvec/lis_matvec_csc.c:95-120 -/
def bufferedOmp (c : R → R) (ptr index : Arr ℕ) (value : Arr R) (rows cols np nprocs : ℕ)
    (s1 s2 s3 : ℕ → List ℕ) (k : ℕ) : Thr R Unit := do
  ompFor s1 (fun _ j => zeroBlockThr np j) k
  Thr.barrier
  ompFor s2 (fun k i => do
    let js ← Thr.lift (ptr.rd i)
    let je ← Thr.lift (ptr.rd (i + 1))
    let t ← Thr.get 0 i
    scatterThr c np index value t js je k) k
  Thr.barrier
  ompFor s3 (fun _ i => do
    let t ← gatherThr nprocs np i
    Thr.put 1 i t) k

/-- `lis_matvec_csc`, unsplit, OpenMP. src/matvec/lis_matvec_csc.c:92-120 -/
def matvecCscOmp (A : Csc R) (nprocs : ℕ) (s1 s2 s3 : ℕ → List ℕ) : ℕ → Thr R Unit :=
  bufferedOmp id A.ptr A.index A.value A.np A.n A.np nprocs s1 s2 s3

end kernels

section conj
variable {R : Type} [Add R] [Mul R] [Zero R] [Star R]

/-- `lis_matvech_csr`, unsplit, OpenMP. src/matvec/lis_matvec_csr.c:185-220 -/
def matvechCsrOmp (A : Csr R) (nprocs : ℕ) (s1 s2 s3 : ℕ → List ℕ) : ℕ → Thr R Unit :=
  bufferedOmp star A.ptr A.index A.value A.n A.np A.np nprocs s1 s2 s3

/-- `lis_matvech_csr`, split, OpenMP: thread `k`. src/matvec/lis_matvec_csr.c:125-164 -/
def matvechSplitCsrOmp (A : SplitCsr R) (nprocs : ℕ) (s1 s2 s3 : ℕ → List ℕ) (k : ℕ) : Thr R Unit := do
  ompFor s1 (fun _ j => zeroBlockThr A.np j) k
  Thr.barrier
  ompFor s2 (fun k i => do
    let js ← Thr.lift (A.L.ptr.rd i)
    let je ← Thr.lift (A.L.ptr.rd (i + 1))
    let t ← Thr.get 0 i
    scatterThr star A.np A.L.index A.L.value t js je k
    let js ← Thr.lift (A.U.ptr.rd i)
    let je ← Thr.lift (A.U.ptr.rd (i + 1))
    scatterThr star A.np A.U.index A.U.value t js je k) k
  Thr.barrier
  ompFor s3 (fun _ i => do
    let t ← gatherThr nprocs A.np i
    let d ← Thr.lift (A.D.rd i)
    let xi ← Thr.get 0 i
    Thr.put 1 i (star d * xi + t)) k

/-- `lis_matvech_csc`, unsplit, OpenMP. src/matvec/lis_matvec_csc.c:170-188 -/
def matvechCscOmp (A : Csc R) (sched : ℕ → List ℕ) : ℕ → Thr R Unit :=
  ompFor sched fun _ i => do
    let js ← Thr.lift (A.ptr.rd i)
    let je ← Thr.lift (A.ptr.rd (i + 1))
    let t ← accRowThr star A.index A.value js je 0
    Thr.put 1 i t

end conj

/-! ### MSR, ELL, DNS -/

section more
variable {R : Type} [Add R] [Mul R] [Zero R]

/-- `lis_matvec_msr`, unsplit, OpenMP. src/matvec/lis_matvec_msr.c:82-99 -/
def matvecMsrOmp (A : Msr R) (sched : ℕ → List ℕ) : ℕ → Thr R Unit :=
  ompFor sched fun _ i => do
    let d ← Thr.lift (A.value.rd i)
    let xi ← Thr.get 0 i
    let js ← Thr.lift (A.index.rd i)
    let je ← Thr.lift (A.index.rd (i + 1))
    let t ← accRowThr id A.index A.value js je (d * xi)
    Thr.put 1 i t

/-- `y[i] += v * x[j]` -/
def addAtThr (i : ℕ) (v : R) (j : ℕ) : Thr R Unit := do
  let yi ← Thr.get 1 i
  let xj ← Thr.get 0 j
  Thr.put 1 i (yi + v * xj)

/-- `lis_matvec_dns`, OpenMP: thread `k` has the rows `is ≤ i < ie` of `LIS_GET_ISIE(k,nprocs,n,is,ie)`.
src/matvec/lis_matvec_dns.c:56-84 -/
def matvecDnsOmp (A : Dns R) (nprocs k : ℕ) : Thr R Unit := do
  let is := (getIsIe k nprocs A.n).1
  let ie := (getIsIe k nprocs A.n).2
  Thr.for' is ie () fun i _ => Thr.put 1 i 0
  Thr.for' 0 A.np () fun j _ =>
    Thr.for' is ie () fun i _ => do
      let v ← Thr.lift (A.value.rd (j * A.n + i))
      addAtThr i v j

/-- `lis_matvec_ell`, unsplit, OpenMP. src/matvec/lis_matvec_ell.c:91-129 -/
def matvecEllOmp (A : Ell R) (nprocs k : ℕ) : Thr R Unit := do
  let is := (getIsIe k nprocs A.n).1
  let ie := (getIsIe k nprocs A.n).2
  Thr.for' is ie () fun i _ => Thr.put 1 i 0
  Thr.for' 0 A.maxnzr () fun j _ =>
    Thr.for' is ie () fun i _ => do
      let v ← Thr.lift (A.value.rd (j * A.n + i))
      let jj ← Thr.lift (A.index.rd (j * A.n + i))
      addAtThr i v jj

/-- second loop of `lis_matvec_bsc`, unsplit, OpenMP. src/matvec/lis_matvec_bsc.c:132-151 -/
def matvecBscOmp2 (A : Bsc R) (sched : ℕ → List ℕ) : ℕ → Thr R Unit :=
  ompFor sched fun _ bi => do
    let bs ← Thr.lift (A.bptr.rd bi)
    let be ← Thr.lift (A.bptr.rd (bi + 1))
    Thr.for' bs be () fun bc _ => do
      let b ← Thr.lift (A.bindex.rd bc)
      Thr.for' 0 A.bnc () fun j _ =>
        Thr.for' 0 A.bnr () fun i _ => do
          let v ← Thr.lift (A.value.rd (bc * (A.bnr * A.bnc) + j * A.bnr + i))
          addAtThr (b * A.bnr + i) v (bi * A.bnc + j)

/-- last loop of `lis_matvech_dia`, unsplit, OpenMP: `t` is not in the `private` clause; it is cell 0 of block 3.
src/matvec/lis_matvec_dia.c:271, :306-317 -/
def matvechDiaOmp3 (np nprocs : ℕ) (sched : ℕ → List ℕ) : ℕ → Thr R Unit :=
  ompFor sched fun _ i => do
    Thr.put 3 0 0
    Thr.for' 0 nprocs () fun j _ => do
      let w ← Thr.get 2 (j * np + i)
      let t ← Thr.get 3 0
      Thr.put 3 0 (t + w)
    let t ← Thr.get 3 0
    Thr.put 1 i t

/-- `lis_vector_swap`, OpenMP: `t` is not in the `private` clause; it is cell 0 of block 2.
src/vector/lis_vector_opv.c:89-97 -/
def vectorSwapOmp (sched : ℕ → List ℕ) : ℕ → Thr R Unit :=
  ompFor sched fun _ i => do
    let a ← Thr.get 1 i
    Thr.put 2 0 a
    let b ← Thr.get 0 i
    Thr.put 1 i b
    let t ← Thr.get 2 0
    Thr.put 0 i t

end more

section more
variable {R : Type} [Add R] [Mul R] [Zero R] [Star R]

/-- `lis_matvech_msr`, unsplit, OpenMP: thread `k`. src/matvec/lis_matvec_msr.c:142-178 -/
def matvechMsrOmp (A : Msr R) (np nprocs : ℕ) (s1 s2 s3 : ℕ → List ℕ) (k : ℕ) : Thr R Unit := do
  ompFor s1 (fun _ j => zeroBlockThr np j) k
  Thr.barrier
  ompFor s2 (fun k i => do
    let js ← Thr.lift (A.index.rd i)
    let je ← Thr.lift (A.index.rd (i + 1))
    let t ← Thr.get 0 i
    scatterThr star np A.index A.value t js je k
    let v ← Thr.lift (A.value.rd i)
    let w ← Thr.get 2 (k * np + i)
    let xi ← Thr.get 0 i
    Thr.put 2 (k * np + i) (w + star v * xi)) k
  Thr.barrier
  ompFor s3 (fun _ i => do
    let t ← gatherThr nprocs np i
    Thr.put 1 i t) k

/-- `lis_matvech_dns`, OpenMP: thread `k`. src/matvec/lis_matvec_dns.c:101-130 -/
def matvechDnsOmp (A : Dns R) (nprocs : ℕ) (s3 : ℕ → List ℕ) (k : ℕ) : Thr R Unit := do
  (do
    let is := (getIsIe k nprocs A.n).1
    let ie := (getIsIe k nprocs A.n).2
    zeroBlockThr A.np k
    Thr.for' 0 A.np () fun j _ => do
      let t ← Thr.for' is ie (0 : R) fun i t => do
        let v ← Thr.lift (A.value.rd (j * A.n + i))
        let xi ← Thr.get 0 i
        pure (t + star v * xi)
      Thr.put 2 (k * A.np + j) t)
  Thr.barrier
  ompFor s3 (fun _ i => do
    let t ← gatherThr nprocs A.np i
    Thr.put 1 i t) k

end more

/-! ### vector operations: `#pragma omp parallel for private(i)` around the loop; blocks are vectors -/

section vec
variable {R : Type}

/-- `lis_vector_copy`. src/vector/lis_vector_opv.c:131-137 -/
def vectorCopyOmp (x y : ℕ) (sched : ℕ → List ℕ) : ℕ → Thr R Unit :=
  ompFor sched fun _ i => do
    let a ← Thr.get x i
    Thr.put y i a

/-- `lis_vector_axpy`. src/vector/lis_vector_opv.c:171-177 -/
def vectorAxpyOmp [Add R] [Mul R] (al : R) (x y : ℕ) (sched : ℕ → List ℕ) : ℕ → Thr R Unit :=
  ompFor sched fun _ i => do
    let b ← Thr.get y i
    let a ← Thr.get x i
    Thr.put y i (b + al * a)

/-- `lis_vector_xpay`. src/vector/lis_vector_opv.c:207-216 -/
def vectorXpayOmp [Add R] [Mul R] (x : ℕ) (al : R) (y : ℕ) (sched : ℕ → List ℕ) : ℕ → Thr R Unit :=
  ompFor sched fun _ i => do
    let a ← Thr.get x i
    let b ← Thr.get y i
    Thr.put y i (a + al * b)

/-- `lis_vector_axpyz`. src/vector/lis_vector_opv.c:251-257 -/
def vectorAxpyzOmp [Add R] [Mul R] (al : R) (x y z : ℕ) (sched : ℕ → List ℕ) : ℕ → Thr R Unit :=
  ompFor sched fun _ i => do
    let a ← Thr.get x i
    let b ← Thr.get y i
    Thr.put z i (al * a + b)

/-- `lis_vector_scale`. src/vector/lis_vector_opv.c:282-288 -/
def vectorScaleOmp [Mul R] (al : R) (x : ℕ) (sched : ℕ → List ℕ) : ℕ → Thr R Unit :=
  ompFor sched fun _ i => do
    let a ← Thr.get x i
    Thr.put x i (al * a)

/-- `lis_vector_pmul`. src/vector/lis_vector_opv.c:323-329 -/
def vectorPmulOmp [Mul R] (x y z : ℕ) (sched : ℕ → List ℕ) : ℕ → Thr R Unit :=
  ompFor sched fun _ i => do
    let a ← Thr.get x i
    let b ← Thr.get y i
    Thr.put z i (a * b)

/-- `lis_vector_pdiv`. src/vector/lis_vector_opv.c:363-369 -/
def vectorPdivOmp [Div R] (x y z : ℕ) (sched : ℕ → List ℕ) : ℕ → Thr R Unit :=
  ompFor sched fun _ i => do
    let a ← Thr.get x i
    let b ← Thr.get y i
    Thr.put z i (a / b)

/-- `lis_vector_set_all`. src/vector/lis_vector_opv.c:394-400 -/
def vectorSetAllOmp (al : R) (x : ℕ) (sched : ℕ → List ℕ) : ℕ → Thr R Unit :=
  ompFor sched fun _ i => Thr.put x i al

/-- `lis_vector_abs`, `lis_vector_reciprocal`, `lis_vector_conjugate`, `lis_vector_shift`: `x[i] = f(x[i])`.
src/vector/lis_vector_opv.c:425-431, :455-461, :485-493, :517-523 -/
def vectorMapOmp (f : R → R) (x : ℕ) (sched : ℕ → List ℕ) : ℕ → Thr R Unit :=
  ompFor sched fun _ i => do
    let a ← Thr.get x i
    Thr.put x i (f a)

end vec

/-! ### running one given interleaving (for counterexamples) -/

/-- thread `t` makes one access -/
def Team.stepT (c : Team V) (t : ℕ) : Option (Team V) :=
  match c.thr t with
  | .rd a i k => if i < (c.mem a).size then some (c.cont t (k ((c.mem a).get i))) else none
  | .wr a i v k => if i < (c.mem a).size then some { c.cont t k with mem := c.mem.set a i v } else none
  | _ => none

/-- the threads of the list make one access each, in that order -/
def Team.runL : List ℕ → Team V → Option (Team V)
  | [], c => some c
  | t :: l, c => (c.stepT t).bind (Team.runL l)

/-- the thread has returned -/
def Thr.isRet : Thr V α → Bool
  | .ret _ => true
  | _ => false

end Lis
