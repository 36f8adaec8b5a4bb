import Verif.Model.Vector
import Mathlib.Logic.Function.Basic

/-!
# The vector machine

The iterative solvers of Lis (src/solver, src/esolver) use vectors only through the calls `lis_vector_*`, `lis_matvec`,
`lis_matvech`, `lis_psolve`, `lis_psolveh` and the residual norms; everything else in them is scalar arithmetic and
control flow.  A solver is therefore modelled as a program over these calls (`Prog`).  Programs have two
interpretations:

* `Prog.exec`: every call is the array-level model of the C function (`Model/Vector.lean`; the matrix product and the
  preconditioner are parameters, to be filled with the kernels of `Model/Matvec*.lean` …), running on the heap of vector
  objects, undefined (`none`) when an access leaves an array;
* `Prog.run`: every call is the mathematical operation on `Fin n → R`.

`Props/Machine.lean` proves once for all programs that `exec` refines `run`, so whatever is proved about `run` of a
solver holds for its `exec`.

Vectors are named by numbers (`LIS_VECTOR` handles): a solver's `b`, `x` and `work[k]` are distinct objects
(`lis_solve_kernel` gives the solver its own copy of `x`, src/solver/lis_solver.c:534-582).  Return codes of the vector
calls are ignored, as in the C code.  `R` is `LIS_SCALAR`, `S` is `LIS_REAL`.
-/

namespace Lis
variable {R S : Type}

/-- calls that change one vector and give no result -/
inductive VOp (R : Type) where
  | copy (x y : ℕ)
  | axpy (a : R) (x y : ℕ)
  | xpay (x : ℕ) (a : R) (y : ℕ)
  | axpyz (a : R) (x y z : ℕ)
  | scale (a : R) (x : ℕ)
  | setAll (a : R) (x : ℕ)
  | pmul (x y z : ℕ)
  | conj (x : ℕ)
  | fill (f : ℕ → R) (x : ℕ)
  | matvec (x y : ℕ) (h : x ≠ y)
  | matvech (x y : ℕ) (h : x ≠ y)
  | psolve (x y : ℕ) (h : x ≠ y)
  | psolveh (x y : ℕ) (h : x ≠ y)
  | lsolve (x y : ℕ) (h : x ≠ y)
  | rdiag (x : ℕ)
  | comb (a : R) (x : ℕ) (l : List (R × ℕ)) (y : ℕ)

/-- calls that read vectors and give a number -/
inductive VRed : Type where
  | dot (x y : ℕ)
  | nhdot (x y : ℕ)

/-- norms -/
inductive VNorm : Type where
  | nrm2 (x : ℕ)
  | nrm1 (x : ℕ)

/-- a solver: a sequence of calls, with a result.  `hist i v` is `solver->rhistory[i] = v`,
`undef` is an access outside one of the solver's own scalar arrays. -/
inductive Prog (R S α : Type) where
  | ret (a : α)
  | vop (o : VOp R) (k : Prog R S α)
  | red (o : VRed) (k : R → Prog R S α)
  | norm (o : VNorm) (k : S → Prog R S α)
  | hist (i : ℕ) (v : S) (k : Prog R S α)
  | undef

namespace Prog
variable {α β : Type}

def bind : Prog R S α → (α → Prog R S β) → Prog R S β
  | ret a, f => f a
  | vop o k, f => vop o (bind k f)
  | red o k, f => red o fun r => bind (k r) f
  | norm o k, f => norm o fun r => bind (k r) f
  | hist i v k, f => hist i v (bind k f)
  | undef, _ => undef

instance : Monad (Prog R S) where
  pure := ret
  bind := bind

end Prog

section calls
/-- the C calls, as programs -/
def vCopy (x y : ℕ) : Prog R S Unit := .vop (.copy x y) (.ret ())
def vAxpy (a : R) (x y : ℕ) : Prog R S Unit := .vop (.axpy a x y) (.ret ())
def vXpay (x : ℕ) (a : R) (y : ℕ) : Prog R S Unit := .vop (.xpay x a y) (.ret ())
def vAxpyz (a : R) (x y z : ℕ) : Prog R S Unit := .vop (.axpyz a x y z) (.ret ())
def vScale (a : R) (x : ℕ) : Prog R S Unit := .vop (.scale a x) (.ret ())
def vSetAll (a : R) (x : ℕ) : Prog R S Unit := .vop (.setAll a x) (.ret ())
def vPmul (x y z : ℕ) : Prog R S Unit := .vop (.pmul x y z) (.ret ())
def vConj (x : ℕ) : Prog R S Unit := .vop (.conj x) (.ret ())
def vFill (f : ℕ → R) (x : ℕ) : Prog R S Unit := .vop (.fill f x) (.ret ())
def mMatvec (x y : ℕ) (h : x ≠ y := by decide) : Prog R S Unit := .vop (.matvec x y h) (.ret ())
def mMatvech (x y : ℕ) (h : x ≠ y := by decide) : Prog R S Unit := .vop (.matvech x y h) (.ret ())
def mPsolve (x y : ℕ) (h : x ≠ y := by decide) : Prog R S Unit := .vop (.psolve x y h) (.ret ())
def mPsolveh (x y : ℕ) (h : x ≠ y := by decide) : Prog R S Unit := .vop (.psolveh x y h) (.ret ())
/-- `lis_matrix_solve(A,x,y,LIS_MATRIX_LOWER)` -/
def mLsolve (x y : ℕ) (h : x ≠ y := by decide) : Prog R S Unit := .vop (.lsolve x y h) (.ret ())
/-- `lis_matrix_get_diagonal(A,x); lis_vector_reciprocal(x)` -/
def mRdiag (x : ℕ) : Prog R S Unit := .vop (.rdiag x) (.ret ())
/-- `for(i=0;i<n;i++) { h = a*x[i]; for(j) h += z_j[i]*c_j; y[i] = h; }` with `l` the list of `(c_j, z_j)`.
E.g. src/solver/lis_solver_idrs.c:665-673 (there `h -= z_j[i]*c_j`, here `c_j` is passed negated) -/
def vComb (a : R) (x : ℕ) (l : List (R × ℕ)) (y : ℕ) : Prog R S Unit := .vop (.comb a x l y) (.ret ())
/-- an access to a local array of the solver -/
def Prog.ofOption {α : Type} : Option α → Prog R S α
  | some a => .ret a
  | none => .undef
/-- reading and writing a local scalar array -/
def aRd {α : Type} (a : Arr α) (i : ℕ) : Prog R S α := .ofOption (a.rd i)
def aWr {α : Type} (a : Arr α) (i : ℕ) (v : α) : Prog R S (Arr α) := .ofOption (a.wr i v)
def vDot (x y : ℕ) : Prog R S R := .red (.dot x y) .ret
def vNhdot (x y : ℕ) : Prog R S R := .red (.nhdot x y) .ret
def vNrm2 (x : ℕ) : Prog R S S := .norm (.nrm2 x) .ret
def vNrm1 (x : ℕ) : Prog R S S := .norm (.nrm1 x) .ret
def setHist (i : ℕ) (v : S) : Prog R S Unit := .hist i v (.ret ())
end calls

/-! ### mathematical interpretation -/

/-- what the calls compute: matrix product, conjugate transposed product, preconditioner, inner products, norms -/
structure Kit (R S : Type) (n : ℕ) where
  mv : (Fin n → R) → (Fin n → R)
  mvh : (Fin n → R) → (Fin n → R)
  ps : (Fin n → R) → (Fin n → R)
  psh : (Fin n → R) → (Fin n → R)
  /-- substitution with the lower triangle and `WD` -/
  ls : (Fin n → R) → (Fin n → R)
  /-- reciprocals of the diagonal -/
  rdg : Fin n → R
  dot : (Fin n → R) → (Fin n → R) → R
  nhdot : (Fin n → R) → (Fin n → R) → R
  nrm2 : (Fin n → R) → S
  nrm1 : (Fin n → R) → S

/-- the vectors, as mathematical vectors -/
abbrev MHeap (R : Type) (n : ℕ) := ℕ → Fin n → R

def VOp.run [Add R] [Mul R] [Star R] {n : ℕ} (K : Kit R S n) : VOp R → MHeap R n → MHeap R n
  | copy x y, h => Function.update h y (h x)
  | axpy a x y, h => Function.update h y fun i => h y i + a * h x i
  | xpay x a y, h => Function.update h y fun i => h x i + a * h y i
  | axpyz a x y z, h => Function.update h z fun i => a * h x i + h y i
  | scale a x, h => Function.update h x fun i => a * h x i
  | setAll a x, h => Function.update h x fun _ => a
  | pmul x y z, h => Function.update h z fun i => h x i * h y i
  | conj x, h => Function.update h x fun i => star (h x i)
  | fill f x, h => Function.update h x fun i => f i
  | matvec x y _, h => Function.update h y (K.mv (h x))
  | matvech x y _, h => Function.update h y (K.mvh (h x))
  | psolve x y _, h => Function.update h y (K.ps (h x))
  | psolveh x y _, h => Function.update h y (K.psh (h x))
  | lsolve x y _, h => Function.update h y (K.ls (h x))
  | rdiag x, h => Function.update h x K.rdg
  | comb a x l y, h => Function.update h y fun i => l.foldl (fun t p => t + h p.2 i * p.1) (a * h x i)

def VRed.run {n : ℕ} (K : Kit R S n) : VRed → MHeap R n → R
  | dot x y, h => K.dot (h x) (h y)
  | nhdot x y, h => K.nhdot (h x) (h y)

def VNorm.run {n : ℕ} (K : Kit R S n) : VNorm → MHeap R n → S
  | nrm2 x, h => K.nrm2 (h x)
  | nrm1 x, h => K.nrm1 (h x)

/-- machine state: vectors and residual history (`solver->rhistory`, an array) -/
structure MSt (R S : Type) (n : ℕ) where
  h : MHeap R n
  hist : Arr S

def Prog.run [Add R] [Mul R] [Star R] {n : ℕ} (K : Kit R S n) {α : Type} : Prog R S α → MSt R S n → Option (α × MSt R S n)
  | .ret a, s => some (a, s)
  | .vop o k, s => k.run K ⟨o.run K s.h, s.hist⟩
  | .red o k, s => (k (o.run K s.h)).run K s
  | .norm o k, s => (k (o.run K s.h)).run K s
  | .hist i v k, s => (s.hist.wr i v).bind fun a => k.run K ⟨s.h, a⟩
  | .undef, _ => none

/-! ### array-level interpretation -/

/-- `for(i=0;i<n;i++) x->value[i] = f(i)`: the random shadow residual, src/solver/lis_solver.c:1839-1842 (`f` is the
sequence of random numbers) -/
def vectorFill (f : ℕ → R) (x : ℕ) (h : Vecs R) : Option (Err × Vecs R) := do
  let h ← loop 0 (h x).n h fun i h => vwr h x i (f i)
  pure (.success, h)

/-- the elementwise linear combinations written out in the solvers, see `vComb` -/
def vectorComb [Add R] [Mul R] (a : R) (x : ℕ) (l : List (R × ℕ)) (y : ℕ) (h : Vecs R) : Option (Err × Vecs R) := do
  let h ← loop 0 (h y).n h fun i h => do
    let xi ← vrd h x i
    let t ← l.foldlM (fun t p => do
      let z ← vrd h p.2 i
      pure (t + z * p.1)) (a * xi)
    vwr h y i t
  pure (.success, h)

/-- the array-level matrix product and preconditioner, the OpenMP parameters of the reductions, and the scalar functions
used by the norms (src/vector/lis_vector_ops.c) -/
structure AKit (R S : Type) where
  mv : ℕ → ℕ → Vecs R → Option (Vecs R)
  mvh : ℕ → ℕ → Vecs R → Option (Vecs R)
  ps : ℕ → ℕ → Vecs R → Option (Vecs R)
  psh : ℕ → ℕ → Vecs R → Option (Vecs R)
  ls : ℕ → ℕ → Vecs R → Option (Vecs R)
  rdg : ℕ → Vecs R → Option (Vecs R)
  sqrt : R → S
  fabs : R → S
  omp : Option (OmpRun R)
  ompS : Option (OmpRun S)

def VOp.exec [Add R] [Mul R] [Star R] (K : AKit R S) : VOp R → Vecs R → Option (Vecs R)
  | copy x y, h => (vectorCopy x y h).map Prod.snd
  | axpy a x y, h => (vectorAxpy a x y h).map Prod.snd
  | xpay x a y, h => (vectorXpay x a y h).map Prod.snd
  | axpyz a x y z, h => (vectorAxpyz a x y z h).map Prod.snd
  | scale a x, h => (vectorScale a x h).map Prod.snd
  | setAll a x, h => (vectorSetAll a x h).map Prod.snd
  | pmul x y z, h => (vectorPmul x y z h).map Prod.snd
  | conj x, h => (vectorConjugate x h).map Prod.snd
  | fill f x, h => (vectorFill f x h).map Prod.snd
  | matvec x y _, h => K.mv x y h
  | matvech x y _, h => K.mvh x y h
  | psolve x y _, h => K.ps x y h
  | psolveh x y _, h => K.psh x y h
  | lsolve x y _, h => K.ls x y h
  | rdiag x, h => K.rdg x h
  | comb a x l y, h => (vectorComb a x l y h).map Prod.snd

/-- a length error leaves the result variable unset: undefined -/
def VRed.exec [Zero R] [Add R] [Mul R] [Star R] (K : AKit R S) : VRed → Vecs R → Option R
  | dot x y, h => (vectorDot K.omp x y h).bind Prod.snd
  | nhdot x y, h => (vectorNhdot K.omp x y h).bind Prod.snd

def VNorm.exec [Zero R] [Add R] [Mul R] [Star R] [Zero S] [Add S] (K : AKit R S) : VNorm → Vecs R → Option S
  | nrm2 x, h => (vectorNrm2 K.sqrt K.omp x h).bind Prod.snd
  | nrm1 x, h => (vectorNrm1 K.fabs K.ompS x h).bind Prod.snd

structure ASt (R S : Type) where
  h : Vecs R
  hist : Arr S

def Prog.exec [Zero R] [Add R] [Mul R] [Star R] [Zero S] [Add S] (K : AKit R S) {α : Type} :
    Prog R S α → ASt R S → Option (α × ASt R S)
  | .ret a, s => some (a, s)
  | .vop o k, s => (o.exec K s.h).bind fun h => k.exec K ⟨h, s.hist⟩
  | .red o k, s => (o.exec K s.h).bind fun r => (k r).exec K s
  | .norm o k, s => (o.exec K s.h).bind fun r => (k r).exec K s
  | .hist i v k, s => (s.hist.wr i v).bind fun a => k.exec K ⟨s.h, a⟩
  | .undef, _ => none

end Lis
