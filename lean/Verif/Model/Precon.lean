import Verif.Model.CsrOps
import Verif.Model.Machine

/-!
# Preconditioners none, Jacobi, SSOR; the reciprocal diagonal `A->WD`; array-level kits for the solver machine
-/

namespace Lis
variable {R S : Type}

/-- a kernel `y = f(x)` working on the arrays of two vector objects.
src/matvec/lis_matvec.c:60-140: `lis_matvec_csr(A, X->value, Y->value)` … -/
def onArr (f : Arr R → Arr R → Option (Arr R)) (x y : ℕ) (h : Vecs R) : Option (Vecs R) := do
  let v ← f (h x).value (h y).value
  pure fun w => if w = y then ⟨(h y).n, v⟩ else h w

/-- `lis_psolve_none`, `lis_psolveh_none`. src/precon/lis_precon.c:363-405 -/
def psolveNone (b x : ℕ) (h : Vecs R) : Option (Vecs R) := (vectorCopy b x h).map Prod.snd

/-- `lis_psolve_jacobi` (`conj` = identity) and `lis_psolveh_jacobi`; `d` is `precon->D`, of length `n`.
src/precon/lis_precon_jacobi.c:90-148, 152-210 -/
def psolveJacobi [Mul R] (conj : R → R) (n : ℕ) (d : Arr R) (b x : ℕ) (h : Vecs R) : Option (Vecs R) :=
  loop 0 n h fun i h => do
    let bi ← vrd h b i
    let di ← d.rd i
    vwr h x i (bi * conj di)

/-- `for(i=0;i<n;i++) x[i] = 1.0/x[i]` on an array: `lis_vector_reciprocal`, src/vector/lis_vector_opv.c:425-470, and
`lis_matrix_diag_inverse` with `bn==1`, src/matrix/lis_matrix_diag.c:776-785 -/
def recipArr [One R] [Div R] (n : ℕ) (d : Arr R) : Option (Arr R) :=
  loop 0 n d fun i d => do
    let a ← d.rd i
    d.wr i (1 / a)

/-- `lis_precon_create_jacobi`: the diagonal and then its reciprocals; `getd` is `lis_matrix_get_diagonal`, `junk` the
fresh vector. src/precon/lis_precon_jacobi.c:61-86 -/
def createJacobi [One R] [Div R] (getd : Arr R → Option (Arr R)) (n : ℕ) (junk : Arr R) : Option (Arr R) := do
  let d ← getd junk
  recipArr n d

/-- `lis_matrix_diag_scale`, `bn==1`. src/matrix/lis_matrix_diag.c:664-672 -/
def diagScale [Mul R] (a : R) (n : ℕ) (d : Arr R) : Option (Arr R) :=
  loop 0 n d fun i d => do
    let v ← d.rd i
    d.wr i (a * v)

/-- `A->WD` of the SOR solver (`w = 1/omega`), of the SSOR preconditioner (`w = ssor_omega`) — the block under
`A->use_wd!=LIS_SOLVER_SOR`: copy `D`, scale by `w`, invert; `junk` is the block of `A->WD`.
src/solver/lis_solver_sor.c:155-166, src/precon/lis_precon_ssor.c:76-87 -/
def makeWd [One R] [Div R] [Mul R] (w : R) (n : ℕ) (D junk : Arr R) : Option (Arr R) := do
  let wd ← loop 0 n junk fun i wd => do
    let v ← D.rd i
    wd.wr i v
  let wd ← diagScale w n wd
  recipArr n wd

/-- `A->WD` of the Gauss-Seidel solver: copy and invert. src/solver/lis_solver_gs.c:144-154 -/
def makeWdGs [One R] [Div R] (n : ℕ) (D junk : Arr R) : Option (Arr R) := do
  let wd ← loop 0 n junk fun i wd => do
    let v ← D.rd i
    wd.wr i v
  recipArr n wd

/-- `lis_matrix_get_diagonal(A,d); lis_vector_reciprocal(d)` on a vector object. src/solver/lis_solver_jacobi.c:145-146 -/
def rdiagOn [One R] [Div R] (getd : Arr R → Option (Arr R)) (x : ℕ) (h : Vecs R) : Option (Vecs R) := do
  let v ← createJacobi getd (h x).n (h x).value
  pure fun w => if w = x then ⟨(h x).n, v⟩ else h w

/-- `A->use_wd`, `A->WD`.  Values other than `LIS_SOLVER_GS`, `LIS_SOLVER_SOR` are `other`. -/
inductive UseWd where
  | other | gs | sor
  deriving DecidableEq

structure WdSt (R : Type) where
  use : UseWd
  wd : Arr R

/-- the block `if( A->use_wd!=LIS_SOLVER_SOR )` of the SOR solver (`w = 1/omega`) and of the SSOR preconditioner
(`w = ssor_omega`). src/solver/lis_solver_sor.c:155-166, src/precon/lis_precon_ssor.c:76-87 -/
def ensureWdSor [One R] [Div R] [Mul R] (w : R) (n : ℕ) (D : Arr R) (s : WdSt R) : Option (WdSt R) :=
  if s.use ≠ .sor then do
    let wd ← makeWd w n D s.wd
    pure ⟨.sor, wd⟩
  else some s

/-- the block `if( A->use_wd!=LIS_SOLVER_GS )` of the Gauss-Seidel solver. src/solver/lis_solver_gs.c:146-156 -/
def ensureWdGs [One R] [Div R] (n : ℕ) (D : Arr R) (s : WdSt R) : Option (WdSt R) :=
  if s.use ≠ .gs then do
    let wd ← makeWdGs n D s.wd
    pure ⟨.gs, wd⟩
  else some s

end Lis
