import Verif.Model.CsrOps
import Verif.Spec.Formats2

/-!
# Triangular solves with split JAD matrices (src/matrix/lis_matrix_jad.c:1433-1588)

`lcol`, `ucol` are `A->L->col`, `A->U->col`: the position of a row in the permuted matrix.
-/

namespace Lis
variable {R : Type}

/-- the walk along one row at position `k`, which every case of the two functions uses:
```
l = 0; j = ptr[l++] + k;
while( j<ptr[l] && l<=maxnzr ) { f(j); j = ptr[l++] + k; }
```
`ptr[l]` is read before `l` is compared. src/matrix/lis_matrix_jad.c:1451-1459 and the same lines of the other cases -/
def jadWalk {σ : Type} (A : Jad R) (k : ℕ) (f : ℕ → σ → Option σ) (s : σ) : Option σ := do
  let p ← A.ptr.rd 0
  let r ← whileL (fun (r : ℕ × ℕ × σ) => do
      let p ← A.ptr.rd r.2.1
      pure (decide (r.1 < p) && decide (r.2.1 ≤ A.maxnzr)))
    (fun (r : ℕ × ℕ × σ) => do
      let s ← f r.1 r.2.2
      let p ← A.ptr.rd r.2.1
      pure (p + k, r.2.1 + 1, s)) (p + k, 1, s)
  pure r.2.2

variable [Zero R] [Add R] [Sub R] [Mul R]

/-- one row of a substitution. src/matrix/lis_matrix_jad.c:1450-1460, 1465-1475 -/
def solveRowJad (A : Jad R) (col : Arr ℕ) (wd : Arr R) (b x i : ℕ) (h : Vecs R) : Option (Vecs R) := do
  let k ← col.rd i
  let t ← vrd h b i
  let t ← jadWalk A k (fun j t => do
    let v ← A.value.rd j
    let c ← A.index.rd j
    let xc ← vrd h x c
    pure (t - v * xc)) t
  let w ← wd.rd i
  vwr h x i (t * w)

/-- `lis_matrix_solve_jad`, `LIS_MATRIX_LOWER`. src/matrix/lis_matrix_jad.c:1447-1461 -/
def solveLowerJad (A : SplitJad R) (lcol : Arr ℕ) (wd : Arr R) (b x : ℕ) (h : Vecs R) : Option (Vecs R) :=
  loop 0 A.n h fun i h => solveRowJad A.L lcol wd b x i h

/-- `lis_matrix_solve_jad`, `LIS_MATRIX_UPPER`. src/matrix/lis_matrix_jad.c:1462-1476 -/
def solveUpperJad (A : SplitJad R) (ucol : Arr ℕ) (wd : Arr R) (b x : ℕ) (h : Vecs R) : Option (Vecs R) :=
  loopDown 0 A.n h fun i h => solveRowJad A.U ucol wd b x i h

/-- `lis_matrix_solve_jad`, `LIS_MATRIX_SSOR`. src/matrix/lis_matrix_jad.c:1477-1504 -/
def solveSsorJad (A : SplitJad R) (lcol ucol : Arr ℕ) (wd : Arr R) (b x : ℕ) (h : Vecs R) : Option (Vecs R) := do
  let h ← loop 0 A.n h fun i h => solveRowJad A.L lcol wd b x i h
  loopDown 0 A.n h fun i h => do
    let k ← ucol.rd i
    let t ← jadWalk A.U k (fun j t => do
      let v ← A.U.value.rd j
      let c ← A.U.index.rd j
      let xc ← vrd h x c
      pure (t + v * xc)) 0
    let xi ← vrd h x i
    let w ← wd.rd i
    vwr h x i (xi - t * w)

/-- one row of a storing sweep of `lis_matrix_solveh_jad`. src/matrix/lis_matrix_jad.c:1530-1539, 1544-1553 -/
def solvehRowJad (conj : R → R) (A : Jad R) (col : Arr ℕ) (wd : Arr R) (x i : ℕ) (h : Vecs R) : Option (Vecs R) := do
  let k ← col.rd i
  let xi ← vrd h x i
  let w ← wd.rd i
  let h ← vwr h x i (xi * conj w)
  jadWalk A k (fun j h => do
    let c ← A.index.rd j
    let xc ← vrd h x c
    let v ← A.value.rd j
    let t ← vrd h x i
    vwr h x c (xc - conj v * t)) h

/-- `lis_matrix_solveh_jad`, `LIS_MATRIX_LOWER`. src/matrix/lis_matrix_jad.c:1527-1540 -/
def solvehLowerJad (conj : R → R) (A : SplitJad R) (ucol : Arr ℕ) (wd : Arr R) (b x : ℕ) (h : Vecs R) : Option (Vecs R) := do
  let (_, h) ← vectorCopy b x h
  loop 0 A.n h fun i h => solvehRowJad conj A.U ucol wd x i h

/-- `lis_matrix_solveh_jad`, `LIS_MATRIX_UPPER`. src/matrix/lis_matrix_jad.c:1541-1554 -/
def solvehUpperJad (conj : R → R) (A : SplitJad R) (lcol : Arr ℕ) (wd : Arr R) (b x : ℕ) (h : Vecs R) : Option (Vecs R) := do
  let (_, h) ← vectorCopy b x h
  loopDown 0 A.n h fun i h => solvehRowJad conj A.L lcol wd x i h

/-- `lis_matrix_solveh_jad`, `LIS_MATRIX_SSOR`. src/matrix/lis_matrix_jad.c:1555-1581 -/
def solvehSsorJad (conj : R → R) (A : SplitJad R) (lcol ucol : Arr ℕ) (wd : Arr R) (b x : ℕ) (h : Vecs R) :
    Option (Vecs R) := do
  let (_, h) ← vectorCopy b x h
  let scat (A : Jad R) (k : ℕ) (t : R) (h : Vecs R) : Option (Vecs R) := jadWalk A k (fun j h => do
    let c ← A.index.rd j
    let xc ← vrd h x c
    let v ← A.value.rd j
    vwr h x c (xc - conj v * t)) h
  let h ← loop 0 A.n h fun i h => do
    let k ← ucol.rd i
    let xi ← vrd h x i
    let w ← wd.rd i
    scat A.U k (xi * conj w) h
  loopDown 0 A.n h fun i h => do
    let k ← lcol.rd i
    let xi ← vrd h x i
    let w ← wd.rd i
    let h ← vwr h x i (xi * conj w)
    scat A.L k (xi * conj w) h

end Lis
