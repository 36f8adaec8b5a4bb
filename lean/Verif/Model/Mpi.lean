import Verif.Model.Proc
import Verif.Model.Matvec1
import Verif.Model.Assembly

/-!
# The distributed CSR matrix: local numbering, communication table, halo exchange, products

Rank `me` of `P` holds rows `is..ie-1` (`A.n = ie-is`) of a `gn × gn` matrix, stored in CSR with *global* column
numbers (`A.np = gn`).  `lis_matrix_assemble` renumbers the columns (`g2lCsr`) and builds the communication table
(`commtableCreate`); `lis_matvec` fetches the remote elements of `x` (`sendRecv`) and multiplies the local rows;
`lis_matvech` multiplies by the local conjugate transpose and returns the remote contributions (`mpiReduce`).
-/

namespace Lis

variable {R : Type}

/-- `lis_matrix_g2l_csr`: the matrix with local column numbers, and `A->l2g_map`.
src/matrix/lis_matrix_mpi.c:222-319.  (The allocation checks never fire in the model; the second one tests the wrong
pointer, :267.) -/
def g2lCsr (j1 j2 : ℕ → ℕ) (gn is ie : ℕ) (A : Csr R) : Option (Csr R × Arr ℕ) := do
  let g ← loop 0 gn (.malloc gn j1) fun i (g : Arr ℕ) => g.wr i 0
  let (np, g) ← loop 0 A.n (A.n, g) fun i (s : ℕ × Arr ℕ) => do
    let js ← A.ptr.rd i
    let je ← A.ptr.rd (i + 1)
    loop js je s fun j (s : ℕ × Arr ℕ) => do
      let jj ← A.index.rd j
      if jj < is ∨ ie ≤ jj then do
        let f ← s.2.rd jj
        if f = 0 then do
          let g ← s.2.wr jj 1
          pure (s.1 + 1, g)
        else pure s
      else pure s
  let (ns, l2g) ← loop 0 gn (0, .malloc (np - A.n) j2) fun i (s : ℕ × Arr ℕ) => do
    let f ← g.rd i
    if f = 1 then
      if i < is ∨ ie ≤ i then do
        let l ← s.2.wr s.1 i
        pure (s.1 + 1, l)
      else pure s
    else pure s
  let (_, g) ← loop 0 ns (A.n, g) fun i (s : ℕ × Arr ℕ) => do
    let jj ← l2g.rd i
    let g ← s.2.wr jj s.1
    pure (s.1 + 1, g)
  let index ← loop 0 A.n A.index fun i (ix : Arr ℕ) => do
    let js ← A.ptr.rd i
    let je ← A.ptr.rd (i + 1)
    loop js je ix fun j (ix : Arr ℕ) => do
      let jj ← ix.rd j
      if is ≤ jj ∧ jj < ie then ix.wr j (jj - is)
      else do
        let v ← g.rd jj
        ix.wr j v
  pure (⟨A.n, np, A.nnz, A.ptr, index, A.value⟩, l2g)

/-- message contents: `LIS_MPI_INT` or `LIS_MPI_SCALAR` elements -/
inductive Msg (R : Type) : Type where
  | ints (l : List ℕ)
  | scalars (l : List R)

/-- the integers of a message received as integers (another type: outside the model) -/
def Msg.asInts : Msg R → Option (List ℕ)
  | .ints l => some l
  | .scalars _ => none

/-- the scalars of a message received as scalars -/
def Msg.asScalars : Msg R → Option (List R)
  | .scalars l => some l
  | .ints _ => none

/-- `len` elements at `&a[off]`, as read by a send -/
def Arr.slice {α : Type} (a : Arr α) (off len : ℕ) : Option (List α) :=
  if off + len ≤ a.size then some ((List.range len).map fun i => a.get (off + i)) else none

/-- a message delivered at `&a[off]` -/
def Arr.blit {α : Type} (a : Arr α) (off : ℕ) : List α → Option (Arr α)
  | [] => some a
  | x :: l => (a.wr off x).bind fun a => a.blit (off + 1) l

/-- delivery of the messages of a group of receives `(source, offset, count)` into the buffer `a`; a message longer
than the count is an error -/
def deliver {α : Type} : List (ℕ × ℕ × ℕ) → List (List α) → Arr α → Option (Arr α)
  | (_, off, cnt) :: rq, m :: ms, a => if m.length ≤ cnt then (a.blit off m).bind (deliver rq ms) else none
  | [], [], a => some a
  | _, _, _ => none

/-- `struct LIS_COMMTABLE_STRUCT` (the fields used; the request and status arrays carry no data).
include/lis.h:489-511 -/
structure CommTable (R : Type) where
  pad : ℕ
  neibpetot : ℕ
  neibpe : Arr ℕ
  import_ptr : Arr ℕ
  import_index : Arr ℕ
  export_ptr : Arr ℕ
  export_index : Arr ℕ
  ws : Arr R
  wr : Arr R

/-- uninitialised memory of the blocks `lis_commtable_create` allocates, and `slack` = how many elements can be read
beyond the end of `import_index` (0 in strict C; `malloc` may hand out more than asked for) -/
structure CommJunk (R : Type) where
  imp : ℕ → ℕ
  im : ℕ → ℕ
  ex : ℕ → ℕ
  neib : ℕ → ℕ
  iptr : ℕ → ℕ
  eptr : ℕ → ℕ
  exi : ℕ → ℕ
  ws : ℕ → R
  wr : ℕ → R
  slack : ℕ

/-- `MPI_Alltoall(a,1,LIS_MPI_INT,b,1,LIS_MPI_INT,comm)`: element `i` goes to rank `i`, the element from rank `i`
arrives in `b[i]` -/
def alltoall (P : ℕ) (a b : Arr ℕ) : Proc (Msg R) (Arr ℕ) := do
  let _ ← Proc.loop 0 P () fun i _ => do
    let v ← Proc.lift (a.rd i)
    .send i (.ints [v]) (pure ())
  .recvAll (List.range P) fun ms => .lift do
    let ms ← ms.mapM Msg.asInts
    deliver ((List.range P).map fun i => (i, i, 1)) ms b

/-- `while( import_index[i]>=A->ranges[k+1] ) k++;` src/matrix/lis_matrix_mpi.c:647, :732 -/
def ownerFrom (ranges : Arr ℕ) (j k : ℕ) : Option ℕ :=
  whileL (fun k => (ranges.rd (k + 1)).map fun e => decide (e ≤ j)) (fun k => some (k + 1)) k

/-- posting `MPI_Irecv(&buf[ptr[i]],ptr[i+1]-ptr[i],..,neibpe[i],..)` for `i<tot`: the list of
`(source, offset, count)`. src/matrix/lis_matrix_mpi.c:744-750, :906-911, :978-983 -/
def postRecvs (tot : ℕ) (neibpe ptr : Arr ℕ) : Option (List (ℕ × ℕ × ℕ)) :=
  loop 0 tot ([] : List (ℕ × ℕ × ℕ)) fun i (l : List (ℕ × ℕ × ℕ)) => do
    let k ← neibpe.rd i
    let n1 ← ptr.rd i
    let e ← ptr.rd (i + 1)
    pure (l ++ [(k, n1, e - n1)])

/-- `import_index[i] = A->l2g_map[i]` and the number of elements wanted from every rank.
src/matrix/lis_matrix_mpi.c:620-649 -/
def commCount (J : CommJunk R) (P : ℕ) (ranges : Arr ℕ) (ns : ℕ) (l2g : Arr ℕ) : Option (Arr ℕ × Arr ℕ) := do
  let imp ← loop 0 ns (.malloc (ns + J.slack) J.imp) fun i (a : Arr ℕ) => do
    let v ← l2g.rd i
    a.wr i v
  let im ← loop 0 P (.malloc P J.im) fun i (a : Arr ℕ) => a.wr i 0
  let (_, im) ← loop 0 ns (0, im) fun i (s : ℕ × Arr ℕ) => do
    let j ← imp.rd i
    let k ← ownerFrom ranges j s.1
    let c ← s.2.rd k
    let im ← s.2.wr k (c + 1)
    pure (k, im)
  pure (imp, im)

/-- number of neighbours and of elements to export. src/matrix/lis_matrix_mpi.c:652-662 -/
def commTotals (P : ℕ) (im ex : Arr ℕ) : Option (ℕ × ℕ) :=
  loop 0 P (0, 0) fun i (s : ℕ × ℕ) => do
    let a ← im.rd i
    let b ← ex.rd i
    if a ≠ 0 ∨ b ≠ 0 then pure (s.1 + 1, s.2 + b) else pure s

/-- `neibpe`, `import_ptr`, `export_ptr`. src/matrix/lis_matrix_mpi.c:713-726 -/
def commNeib (J : CommJunk R) (P neibpetot : ℕ) (im ex : Arr ℕ) : Option (Arr ℕ × Arr ℕ × Arr ℕ) := do
  let iptr ← (Arr.malloc (neibpetot + 1) J.iptr).wr 0 0
  let eptr ← (Arr.malloc (neibpetot + 1) J.eptr).wr 0 0
  let (_, neib, iptr, eptr) ← loopB 0 P (0, .malloc neibpetot J.neib, iptr, eptr)
    fun i (s : ℕ × Arr ℕ × Arr ℕ × Arr ℕ) =>
      if s.1 < neibpetot then do
        let a ← im.rd i
        let b ← ex.rd i
        if a ≠ 0 ∨ b ≠ 0 then do
          let neib ← s.2.1.wr s.1 i
          let p ← s.2.2.1.rd s.1
          let iptr ← s.2.2.1.wr (s.1 + 1) (p + a)
          let q ← s.2.2.2.rd s.1
          let eptr ← s.2.2.2.wr (s.1 + 1) (q + b)
          pure (false, s.1 + 1, neib, iptr, eptr)
        else pure (false, s)
      else pure (true, s)
  pure (neib, iptr, eptr)

/-- `import_index[i] -= ranges[owner]`. src/matrix/lis_matrix_mpi.c:729-734 -/
def commRelative (ranges : Arr ℕ) (ns : ℕ) (imp : Arr ℕ) : Option (Arr ℕ) := do
  let (_, imp) ← loop 0 ns (0, imp) fun i (s : ℕ × Arr ℕ) => do
    let j ← s.2.rd i
    let k ← ownerFrom ranges j s.1
    let b ← ranges.rd k
    let imp ← s.2.wr i (j - b)
    pure (k, imp)
  pure imp

/-- the index exchange: `MPI_Isend(&import_index[n1],n2,LIS_MPI_INT,k,..)` to every neighbour,
`MPI_Irecv(&export_index[n1],..)` from every neighbour, `MPI_Waitall`. src/matrix/lis_matrix_mpi.c:736-752 -/
def commIndices (tot : ℕ) (neib iptr eptr imp exi : Arr ℕ) : Proc (Msg R) (Arr ℕ) := do
  let _ ← Proc.loop 0 tot () fun i _ => do
    let k ← Proc.lift (neib.rd i)
    let n1 ← Proc.lift (iptr.rd i)
    let e ← Proc.lift (iptr.rd (i + 1))
    let m ← Proc.lift (imp.slice n1 (e - n1))
    .send k (.ints m) (pure ())
  let rq ← Proc.lift (postRecvs tot neib eptr)
  .recvAll (rq.map Prod.fst) fun ms => .lift do
    let ms ← ms.mapM Msg.asInts
    deliver rq ms exi

/-- `lis_commtable_create` from after the `MPI_Alltoall` on. src/matrix/lis_matrix_mpi.c:651-827 -/
def commFinish (J : CommJunk R) (P : ℕ) (ranges : Arr ℕ) (n ns pad : ℕ) (imp im ex : Arr ℕ) :
    Proc (Msg R) (CommTable R) := do
  let (tot, excount) ← Proc.lift (commTotals P im ex)
  let (neib, iptr, eptr) ← Proc.lift (commNeib J P tot im ex)
  let imp ← Proc.lift (commRelative ranges ns imp)
  let exi ← commIndices tot neib iptr eptr imp (.malloc excount J.exi)
  let imp ← Proc.lift <| loop 0 ns imp fun i (a : Arr ℕ) => a.wr i (n + i)
  let wssize ← Proc.lift (eptr.rd tot)
  let wrsize ← Proc.lift (iptr.rd tot)
  pure ⟨pad, tot, neib, iptr, imp, eptr, exi, .malloc wssize J.ws, .malloc wrsize J.wr⟩

/-- `lis_commtable_create` on a rank with `n` rows and `np` local columns. src/matrix/lis_matrix_mpi.c:594-827 -/
def commtableCreate (J : CommJunk R) (P : ℕ) (ranges : Arr ℕ) (n np pad : ℕ) (l2g : Arr ℕ) :
    Proc (Msg R) (CommTable R) := do
  let (imp, im) ← Proc.lift (commCount J P ranges (np - n) l2g)
  let ex ← alltoall P im (.malloc P J.ex)
  commFinish J P ranges n (np - n) pad imp im ex

/-- `lis_send_recv`: the table (with its work arrays) and `x` with the remote elements filled in.
src/matrix/lis_matrix_mpi.c:834-953 (the live parts) -/
def sendRecv (ct : CommTable R) (x : Arr R) : Proc (Msg R) (CommTable R × Arr R) := do
  let ws ← Proc.loop 0 ct.neibpetot ct.ws fun neib (ws : Arr R) => do
    let is ← Proc.lift (ct.export_ptr.rd neib)
    let e ← Proc.lift (ct.export_ptr.rd (neib + 1))
    let inum := e - is
    let ws ← Proc.lift <| loop is (is + inum) ws fun i (ws : Arr R) => do
      let k ← ct.export_index.rd i
      let v ← x.rd k
      ws.wr i v
    let m ← Proc.lift (ws.slice is inum)
    let d ← Proc.lift (ct.neibpe.rd neib)
    .send d (.scalars m) (pure ws)
  let rq ← Proc.lift (postRecvs ct.neibpetot ct.neibpe ct.import_ptr)
  let wr ← .recvAll (rq.map Prod.fst) fun ms => .lift do
    let ms ← ms.mapM Msg.asScalars
    deliver rq ms ct.wr
  let k0 ← Proc.lift (ct.import_index.rd 0)
  let lo ← Proc.lift (ct.import_ptr.rd 0)
  let hi ← Proc.lift (ct.import_ptr.rd ct.neibpetot)
  let (_, x) ← Proc.lift <| loop lo hi (k0 + ct.pad, x) fun i (s : ℕ × Arr R) => do
    let v ← wr.rd i
    let x ← s.2.wr s.1 v
    pure (s.1 + 1, x)
  pure ({ ct with ws := ws, wr := wr }, x)

/-- `lis_reduce`: the remote contributions in `x[n..np)` are added to their owners' elements.
src/matrix/lis_matrix_mpi.c:959-1001 -/
def mpiReduce [Add R] (ct : CommTable R) (x : Arr R) : Proc (Msg R) (CommTable R × Arr R) := do
  let wr ← Proc.loop 0 ct.neibpetot ct.wr fun neib (wr : Arr R) => do
    let is ← Proc.lift (ct.import_ptr.rd neib)
    let e ← Proc.lift (ct.import_ptr.rd (neib + 1))
    let inum := e - is
    let wr ← Proc.lift <| loop is (is + inum) wr fun i (wr : Arr R) => do
      let k ← ct.import_index.rd i
      let v ← x.rd (k + ct.pad)
      wr.wr i v
    let m ← Proc.lift (wr.slice is inum)
    let d ← Proc.lift (ct.neibpe.rd neib)
    .send d (.scalars m) (pure wr)
  let rq ← Proc.lift (postRecvs ct.neibpetot ct.neibpe ct.export_ptr)
  let ws ← .recvAll (rq.map Prod.fst) fun ms => .lift do
    let ms ← ms.mapM Msg.asScalars
    deliver rq ms ct.ws
  let x ← Proc.lift <| loop 0 ct.neibpetot x fun neib (x : Arr R) => do
    let is ← ct.export_ptr.rd neib
    let e ← ct.export_ptr.rd (neib + 1)
    loop is (is + (e - is)) x fun i (x : Arr R) => do
      let k ← ct.export_index.rd i
      let v ← ws.rd i
      let o ← x.rd k
      x.wr k (o + v)
  pure ({ ct with ws := ws, wr := wr }, x)

/-- `lis_realloc(value,(A->np+A->pad)*sizeof(LIS_SCALAR))` when the vector is shorter: the old elements are kept, the
new ones are uninitialised. include/lis_matvec.h:31-44, :60-72 -/
def growTo (junk : ℕ → R) (m : ℕ) (x : Arr R) : Arr R :=
  if x.size < m then ⟨m, fun i => if i < x.size then x.get i else junk i⟩ else x

/-- `lis_matrix_assemble` on user-supplied CSR arrays with global column numbers, MPI build
(src/matrix/lis_matrix.c:660-690): new column numbers, then the communication table. -/
def mpiAssembleCsr (j1 j2 : ℕ → ℕ) (J : CommJunk R) (P : ℕ) (ranges : Arr ℕ) (gn is ie : ℕ) (A : Csr R) :
    Proc (Msg R) (Csr R × CommTable R) := do
  let (A, l2g) ← Proc.lift (g2lCsr j1 j2 gn is ie A)
  let ct ← commtableCreate J P ranges A.n A.np 0 l2g
  pure (A, ct)

/-- `lis_matvec` for CSR, MPI build: `x` (grown, halo filled) and `y`. src/matvec/lis_matvec.c:68-73 -/
def mpiMatvecCsr [NonUnitalNonAssocSemiring R] (junk : ℕ → R) (A : Csr R) (ct : CommTable R) (x y : Arr R) :
    Proc (Msg R) (CommTable R × Arr R × Arr R) := do
  let (ct, x) ← sendRecv ct (growTo junk A.np x)
  let y ← Proc.lift (matvecCsr A x y)
  pure (ct, x, y)

/-- `lis_matvech` for CSR, MPI build: `y` (grown). src/matvec/lis_matvec.c:204-212 -/
def mpiMatvechCsr [NonUnitalNonAssocSemiring R] [Star R] (junk : ℕ → R) (A : Csr R) (ct : CommTable R) (x y : Arr R) :
    Proc (Msg R) (CommTable R × Arr R) := do
  let y ← Proc.lift (matvechCsr A x (growTo junk A.np y))
  mpiReduce ct y

end Lis
