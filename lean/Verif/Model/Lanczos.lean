import Verif.Model.Esolver
import Verif.Model.Solver2
import Verif.Model.GramSchmidt

/-!
# Lanczos iteration (src/esolver/lis_esolver_li.c), standard eigenproblem

Handles: `r = esolver->work[0]` is vector 1, `v[j] = esolver->work[1+j]` is vector `2+j`. The number of passes is `ss-1`.
`lt` is the comparison `<` of `LIS_REAL` values. Real build (`LIS_SCALAR` is `LIS_REAL` up to `ofS`; line 253 stores a norm
through a cast pointer). The C variable `j` of a pass is `i+1` here.

Not modelled: printing, timing, the `solver` object (created and destroyed, otherwise used only for its name), failure of
the allocations of `t`, `tq`, `tr` (not tested in the code), the object `esolver2` (its effect is the parameter `inner`).
-/

namespace Lis
variable {R S : Type}

abbrev liR : ℕ := 1
abbrev liV (j : ℕ) : ℕ := 2 + j

section
variable [Zero R] [One R] [Add R] [Neg R] [Mul R] [Div R] [RealOps S] [EigOps R S]

/-- `v(j) = r / beta(j-1); r = A * v(j); r = r - beta(j-1) * v(j-1)`, `j = i+1`. src/esolver/lis_esolver_li.c:221-234 -/
def liNew (ss : ℕ) (nrm2 : S) (i : ℕ) (t : Arr R) : Prog R S Unit :=
  if i = 0 then do
    vScale (EigOps.ofS (1 / nrm2)) (liV (i + 1))
    mMatvec (liV (i + 1)) liR (by simp only [liV, liR]; omega)
  else do
    let b ← aRd t ((i - 1) * ss + i)
    vScale (1 / b) (liV (i + 1))
    mMatvec (liV (i + 1)) liR (by simp only [liV, liR]; omega)
    let b ← aRd t ((i - 1) * ss + i)
    vAxpy (-b) (liV i) liR

/-- `for (k=1;k<j;k++) { lis_vector_dot(v[j],v[k],&dot); lis_vector_axpy(-dot,v[k],v[j]); }`, `j = i+1`.
src/esolver/lis_esolver_li.c:243-247 -/
def liReorth (i : ℕ) : Prog R S Unit :=
  pfor (fun k _ => do
    let d ← vDot (liV (i + 1)) (liV k)
    vAxpy (-d) (liV k) (liV (i + 1))) i 1 ()

/-- one pass of the loop, `j = i+1`; `true` is the `break`. src/esolver/lis_esolver_li.c:215-256 -/
def liStep (lt : S → S → Bool) (tol : S) (ss : ℕ) (nrm2 : S) (i : ℕ) (t : Arr R) : Prog R S (Bool × Arr R) := do
  vCopy liR (liV (i + 1))
  liNew ss nrm2 i t
  let a ← vDot (liV (i + 1)) liR
  let t ← aWr t (i * ss + i) a
  let a ← aRd t (i * ss + i)
  vAxpy (-a) (liV (i + 1)) liR
  liReorth i
  let b ← (vNrm2 liR : Prog R S S)
  let t ← aWr t (i * ss + i + 1) (EigOps.ofS b)
  let b ← aRd t (i * ss + i + 1)
  if lt (EigOps.fabs b) tol then pure (true, t)
  else do
    let t ← aWr t ((i + 1) * ss + i) b
    pure (false, t)

/-- `j=0; while (j<ss-1) { j = j+1; … }`: at most `fuel = ss-1-i` passes from pass `i`. The first result is the number of
passes done (the final `j`). src/esolver/lis_esolver_li.c:212-257 -/
def liWhile (body : ℕ → Arr R → Prog R S (Bool × Arr R)) : ℕ → ℕ → Arr R → Prog R S (ℕ × Arr R)
  | 0, i, t => pure (i, t)
  | k + 1, i, t => do
    let p ← body i t
    if p.1 then pure (i + 1, p.2) else liWhile body k (i + 1) p.2

/-- `for (i=0;i<ss*ss;i++) t[i] = 0.0;`. src/esolver/lis_esolver_li.c:210 -/
def liZero (ss : ℕ) (t : Arr R) : Option (Arr R) := loop 0 (ss * ss) t fun i t => t.wr i 0

/-- the part up to the eigenvalues of `t`: result the number of passes and `t`. `junk`: the uninitialised block `t`.
src/esolver/lis_esolver_li.c:181-257 -/
def liTridiag (lt : S → S → Bool) (junk : ℕ → R) (tol : S) (ss : ℕ) : Prog R S (ℕ × Arr R) := do
  vSetAll 0 (liV 0)
  vSetAll 1 liR
  let nrm2 ← (vNrm2 liR : Prog R S S)
  let t ← Prog.ofOption (liZero ss (Arr.malloc (ss * ss) junk))
  liWhile (liStep lt tol ss nrm2) (ss - 1) 0 t

/-- `for (i=0;i<ss;i++) esolver->evalue[i] = t[i*ss+i];`. src/esolver/lis_esolver_li.c:265-268 -/
def liValues (ss : ℕ) (t ev : Arr R) : Option (Arr R) := loop 0 ss ev fun i ev => do
  let v ← t.rd (i * ss + i)
  ev.wr i v

/-- `lis_eli` with `-rval true`, up to the Ritz values: the array `esolver->evalue`. `qr n a` is `lis_array_qr` with the
uninitialised blocks `tq`, `tr`, and gives the matrix it leaves in `a`. src/esolver/lis_esolver_li.c:149-294 -/
def liRitz (qr : ℕ → Arr R → Option (Arr R)) (lt : S → S → Bool) (junk : ℕ → R) (tol : S) (ss : ℕ) (ev : Arr R) :
    Prog R S (Arr R) := do
  let p ← liTridiag lt junk tol ss
  let t ← Prog.ofOption (qr ss p.2)
  Prog.ofOption (liValues ss t ev)

end

/-! ### the refinement -/

/-- what the call `lis_esolve(A,esolver->evector[i],&evalue,esolver2)` leaves: its return code, the vector, the variable
`evalue` and `esolver2->iter[0]`, `resid[0]`, `rhistory` -/
structure LiInner (R S V : Type) where
  err : Err
  vec : V
  evalue : R
  iter : ℕ
  resid : S
  hist : Arr S

/-- the arrays of the handle: `evalue`, `iter`, `resid`, `rhistory`, the vectors `evector[i]`, and the local variables -/
structure LiSt (R S V : Type) where
  evalue : Arr R
  iter : Arr ℕ
  resid : Arr S
  hist : Arr S
  evector : Arr V
  /-- `evalue`, and `(evalue0, iter0, resid0)` -/
  loc : R × (R × ℕ × S)

/-- `for (ic=0;ic<iter0+1;ic++) esolver->rhistory[ic] = esolver2->rhistory[ic];`. src/esolver/lis_esolver_li.c:325-331 -/
def liCopyHist (mem : Bool) (iter0 : ℕ) (src dst : Arr S) : Option (Arr S) :=
  if mem then loop 0 (iter0 + 1) dst fun ic dst => do
    let v ← src.rd ic
    dst.wr ic v
  else some dst

/-- `evalue0`, `iter0`, `resid0` and the history of mode 0. src/esolver/lis_esolver_li.c:320-331 -/
def liKeep {V : Type} (mem : Bool) (i : ℕ) (q : LiInner R S V) (s : LiSt R S V) : Option (LiSt R S V) :=
  if i = 0 then do
    let e ← s.evalue.rd 0
    let h ← liCopyHist mem q.iter q.hist s.hist
    pure { s with hist := h, loc := (s.loc.1, (e, q.iter, q.resid)) }
  else some s

/-- mode `i` of the refinement. `inner v ishift e`: the call with content `v` of the vector just created, `esolver2->ishift`
and the content of the variable `evalue`; `vjunk` is the new vector. Its return code is not looked at.
src/esolver/lis_esolver_li.c:309-331 -/
def liRefineStep {V : Type} (inner : ℕ → V → R → R → LiInner R S V) (vjunk : V) (mem : Bool) (i : ℕ) (s : LiSt R S V) :
    Option (LiSt R S V) := do
  let sh ← s.evalue.rd i
  let q := inner i vjunk sh s.loc.1
  let evector ← s.evector.wr i q.vec
  let evalue ← s.evalue.wr i q.evalue
  let iter ← s.iter.wr i q.iter
  let resid ← s.resid.wr i q.resid
  liKeep mem i q { s with evector := evector, evalue := evalue, iter := iter, resid := resid, loc := (q.evalue, s.loc.2) }

/-- the refinement and the end of `lis_eli`: the value returned, the handle, the vector `esolver->x`.
src/esolver/lis_esolver_li.c:301-361 -/
def liRefine {V : Type} (inner : ℕ → V → R → R → LiInner R S V) (vjunk : V) (mem : Bool) (ss : ℕ) (s : LiSt R S V) :
    Option (Err × LiSt R S V × V) := do
  let s ← loop 0 ss s (liRefineStep inner vjunk mem)
  let ev ← s.evalue.wr 0 s.loc.2.1
  let it ← s.iter.wr 0 s.loc.2.2.1
  let rs ← s.resid.wr 0 s.loc.2.2.2
  let x ← s.evector.rd 0
  pure (.success, { s with evalue := ev, iter := it, resid := rs }, x)

end Lis
