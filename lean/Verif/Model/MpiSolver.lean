import Verif.Model.Mpi
import Verif.Model.Machine

/-!
# Solver programs on several ranks

In the MPI build every rank runs the same solver code on its own part of every vector.  The element-wise calls are
local; the products communicate (`Model/Mpi.lean`); the inner products and norms are the serial ones on the local part
followed by `MPI_Allreduce`; the preconditioner works on the local part.  Real build (`LIS_SCALAR` = `LIS_REAL`); in
the complex build `lis_vector_nrm2` reduces a complex number as a real one.
-/

namespace Lis
variable {R : Type}

/-- `MPI_Allreduce(&v,&tmp,1,..,MPI_SUM,comm)`: every contribution reaches every rank and is added.  (In rank order
here; the order does not matter in a commutative monoid.) src/vector/lis_vector_ops.c:119, :195, :263, :330 -/
def mpiAllreduce [Zero R] [Add R] (P : ℕ) (v : R) : Proc (Msg R) R := do
  let _ ← Proc.loop 0 P () fun i _ => .send i (.scalars [v]) (pure ())
  .recvAll (List.range P) fun ms => .lift do
    let ms ← ms.mapM Msg.asScalars
    pure (ms.flatten.foldl (· + ·) 0)

/-- what a rank needs besides its vectors: the assembled local matrix, the local calls (serial; `loc.mv`, `loc.mvh` are
not used), its first global row, and the contents of memory got by `lis_realloc` for vector `v` -/
structure DKit (R : Type) where
  A : Csr R
  loc : AKit R R
  is : ℕ
  junk : ℕ → ℕ → R

/-- the heap with the array of vector `v` replaced -/
def Vecs.setArr (h : Vecs R) (v : ℕ) (a : Arr R) : Vecs R := fun w => if w = v then ⟨(h v).n, a⟩ else h w

/-- a call that changes vectors, on one rank.  `fill`: the random numbers of rank after rank form the sequence `f`. -/
def VOp.dexec [NonUnitalNonAssocSemiring R] [Star R] (K : DKit R) : VOp R → Vecs R → CommTable R →
    Proc (Msg R) (Vecs R × CommTable R)
  | matvec x y _, h, ct => do
    let (ct, xv, yv) ← mpiMatvecCsr (K.junk x) K.A ct (h x).value (h y).value
    pure ((h.setArr x xv).setArr y yv, ct)
  | matvech x y _, h, ct => do
    let (ct, yv) ← mpiMatvechCsr (K.junk y) K.A ct (h x).value (h y).value
    pure (h.setArr y yv, ct)
  | fill f x, h, ct => .lift do
    let h ← (VOp.fill (fun i => f (K.is + i)) x).exec K.loc h
    pure (h, ct)
  | o, h, ct => .lift do
    let h ← o.exec K.loc h
    pure (h, ct)

/-- inner products: the local one, then `MPI_Allreduce`. src/vector/lis_vector_ops.c:59-125, :135-200 -/
def VRed.dexec [NonUnitalNonAssocSemiring R] [Star R] (K : DKit R) (P : ℕ) (o : VRed) (h : Vecs R) : Proc (Msg R) R := do
  let v ← Proc.lift (o.exec K.loc h)
  mpiAllreduce P v

/-- norms. src/vector/lis_vector_ops.c:212-268 (sum of squares, `MPI_Allreduce`, `sqrt`), :278-336 -/
def VNorm.dexec [NonUnitalNonAssocSemiring R] [Star R] (K : DKit R) (P : ℕ) : VNorm → Vecs R → Proc (Msg R) R
  | nrm2 x, h => do
    let v ← Proc.lift ((VRed.dot x x).exec K.loc h)
    let s ← mpiAllreduce P v
    pure (K.loc.sqrt s)
  | nrm1 x, h => do
    let v ← Proc.lift ((VNorm.nrm1 x).exec K.loc h)
    mpiAllreduce P v

/-- a rank's state: its vectors, its residual history, its communication table -/
structure DSt (R : Type) where
  h : Vecs R
  hist : Arr R
  ct : CommTable R

/-- the solver program on one rank -/
def Prog.dexec [NonUnitalNonAssocSemiring R] [Star R] (K : DKit R) (P : ℕ) {α : Type} :
    Prog R R α → DSt R → Proc (Msg R) (α × DSt R)
  | .ret a, s => .ret (a, s)
  | .vop o k, s => do
    let (h, ct) ← o.dexec K s.h s.ct
    k.dexec K P ⟨h, s.hist, ct⟩
  | .red o k, s => do
    let r ← o.dexec K P s.h
    (k r).dexec K P s
  | .norm o k, s => do
    let r ← o.dexec K P s.h
    (k r).dexec K P s
  | .hist i v k, s => do
    let a ← Proc.lift (s.hist.wr i v)
    k.dexec K P ⟨s.h, a, s.ct⟩
  | .undef, _ => .lift none

/-- `lis_matrix_assemble`, then the solver program, on one rank -/
def Prog.dmain [NonUnitalNonAssocSemiring R] [Star R] (j1 j2 : ℕ → ℕ) (J : CommJunk R) (P : ℕ) (ranges : Arr ℕ)
    (gn is ie : ℕ) (A : Csr R) (loc : AKit R R) (junk : ℕ → ℕ → R) {α : Type} (p : Prog R R α) (h : Vecs R)
    (hist : Arr R) : Proc (Msg R) (α × DSt R) := do
  let (A', ct) ← mpiAssembleCsr j1 j2 J P ranges gn is ie A
  p.dexec ⟨A', loc, is, junk⟩ P ⟨h, hist, ct⟩

end Lis
