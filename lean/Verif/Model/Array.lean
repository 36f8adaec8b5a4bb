import Verif.Base.C

/-!
# Small dense kernels (src/array/lis_array.c)

Column major `n × n` arrays: element `(i,j)` is `a[i+j*n]`.  The input and output arrays are different objects.
-/

namespace Lis
variable {R : Type}

/-- the argument `op` -/
inductive ArrOp where
  | ins | sub | add
  deriving DecidableEq

section
variable [Zero R] [Add R] [Sub R] [Mul R]

/-- `y[i] = t`, `y[i] -= t` or `y[i] += t` -/
def opWr (op : ArrOp) (y : Arr R) (i : Nat) (t : R) : Option (Arr R) :=
  match op with
  | .ins => y.wr i t
  | .sub => do
    let v ← y.rd i
    y.wr i (v - t)
  | .add => do
    let v ← y.rd i
    y.wr i (v + t)

/-- `c(a[p])*x[q]` -/
def mulAt (c : R → R) (a x : Arr R) (p q : Nat) : Option R := do
  let u ← a.rd p
  let v ← x.rd q
  pure (c u * v)

/-- `c(a[p0])*x[q] + c(a[p1])*x[q+1]` -/
def lin2 (c : R → R) (a x : Arr R) (p0 p1 q : Nat) : Option R := do
  let s ← mulAt c a x p0 q
  let t ← mulAt c a x p1 (q + 1)
  pure (s + t)

/-- `c(a[p0])*x[q] + c(a[p1])*x[q+1] + c(a[p2])*x[q+2]` -/
def lin3 (c : R → R) (a x : Arr R) (p0 p1 p2 q : Nat) : Option R := do
  let s ← lin2 c a x p0 p1 q
  let t ← mulAt c a x p2 (q + 2)
  pure (s + t)

/-- `for(i<m) { t=0; for(j<n) t += c(a[ix i j])*x[j]; y[i] op t; }` -/
def denseRows (c : R → R) (ix : Nat → Nat → Nat) (op : ArrOp) (m n : Nat) (a x y : Arr R) : Option (Arr R) :=
  loop 0 m y fun i y => do
    let t ← loop 0 n 0 fun j (t : R) => do
      let p ← mulAt c a x (ix i j) j
      pure (t + p)
    opWr op y i t

/-- `lis_array_matvec`. src/array/lis_array.c:428-528 -/
def arrayMatvec (op : ArrOp) (n : Nat) (a x y : Arr R) : Option (Arr R) :=
  match n with
  | 1 => do
    let t ← mulAt id a x 0 0
    opWr op y 0 t
  | 2 => do
    let t ← lin2 id a x 0 2 0
    let y ← opWr op y 0 t
    let t ← lin2 id a x 1 3 0
    opWr op y 1 t
  | 3 => do
    let t ← lin3 id a x 0 3 6 0
    let y ← opWr op y 0 t
    let t ← lin3 id a x 1 4 7 0
    let y ← opWr op y 1 t
    let t ← lin3 id a x 2 5 8 0
    opWr op y 2 t
  | n => denseRows id (fun i j => i + j * n) op n n a x y

/-- `lis_array_matvech`. src/array/lis_array.c:531-631 -/
def arrayMatvech (conj : R → R) (op : ArrOp) (n : Nat) (a x y : Arr R) : Option (Arr R) :=
  match n with
  | 1 => do
    let t ← mulAt conj a x 0 0
    opWr op y 0 t
  | 2 => do
    let t ← lin2 conj a x 0 1 0
    let y ← opWr op y 0 t
    let t ← lin2 conj a x 2 3 0
    opWr op y 1 t
  | 3 => do
    let t ← lin3 conj a x 0 1 2 0
    let y ← opWr op y 0 t
    let t ← lin3 conj a x 3 4 5 0
    let y ← opWr op y 1 t
    let t ← lin3 conj a x 6 7 8 0
    opWr op y 2 t
  | n => denseRows conj (fun i j => i * n + j) op n n a x y

/-- `lis_array_matvec_ns` for the three documented values of `op`. src/array/lis_array.c:634-678 -/
def arrayMatvecNs (op : ArrOp) (m n : Nat) (a : Arr R) (lda : Nat) (x y : Arr R) : Option (Arr R) :=
  denseRows id (fun i j => i + j * lda) op m n a x y

/-- `for(i<l) c[i+j*ldc] ±= a[i+k*lda]*b[k+j*ldb]` -/
def addCol (neg : Bool) (l : Nat) (a : Arr R) (lda : Nat) (b : Arr R) (ldb : Nat) (ldc j k : Nat) (c : Arr R) :
    Option (Arr R) :=
  loop 0 l c fun i c => do
    let t ← mulAt id a b (i + k * lda) (k + j * ldb)
    opWr (if neg then .sub else .add) c (i + j * ldc) t

/-- `lis_array_matmat_ns`: `c` (`l × m`) op `a` (`l × n`) times `b` (`n × m`). src/array/lis_array.c:848-903 -/
def arrayMatmatNs (op : ArrOp) (l m n : Nat) (a : Arr R) (lda : Nat) (b : Arr R) (ldb : Nat) (c : Arr R) (ldc : Nat) :
    Option (Arr R) :=
  loop 0 m c fun j c => do
    let c ← (match op with
      | .ins => loop 0 l c fun i c => c.wr (i + j * ldc) 0
      | _ => some c)
    loop 0 n c fun k c => addCol (op == .sub) l a lda b ldb ldc j k c

/-- `lis_array_matmat`; the default case is the loop of `lis_array_matmat_ns` with all sizes equal.
src/array/lis_array.c:715-845 -/
def arrayMatmat (op : ArrOp) (n : Nat) (a b c : Arr R) : Option (Arr R) :=
  match n with
  | 1 => do
    let t ← mulAt id a b 0 0
    opWr op c 0 t
  | 2 => do
    let t ← lin2 id a b 0 2 0
    let c ← opWr op c 0 t
    let t ← lin2 id a b 1 3 0
    let c ← opWr op c 1 t
    let t ← lin2 id a b 0 2 2
    let c ← opWr op c 2 t
    let t ← lin2 id a b 1 3 2
    opWr op c 3 t
  | 3 => do
    let t ← lin3 id a b 0 3 6 0
    let c ← opWr op c 0 t
    let t ← lin3 id a b 1 4 7 0
    let c ← opWr op c 1 t
    let t ← lin3 id a b 2 5 8 0
    let c ← opWr op c 2 t
    let t ← lin3 id a b 0 3 6 3
    let c ← opWr op c 3 t
    let t ← lin3 id a b 1 4 7 3
    let c ← opWr op c 4 t
    let t ← lin3 id a b 2 5 8 3
    let c ← opWr op c 5 t
    let t ← lin3 id a b 0 3 6 6
    let c ← opWr op c 6 t
    let t ← lin3 id a b 1 4 7 6
    let c ← opWr op c 7 t
    let t ← lin3 id a b 2 5 8 6
    opWr op c 8 t
  | n => arrayMatmatNs op n n n a n b n c n
end

section
variable [Zero R] [One R] [Sub R] [Mul R] [Div R]

/-- elimination without pivoting, reciprocal pivots on the diagonal. src/array/lis_array.c:919-932, 984-996 -/
def luElim (n : Nat) (w : Arr R) : Option (Arr R) :=
  loop 0 n w fun k w => do
    let d ← w.rd (k + k * n)
    let w ← w.wr (k + k * n) (1 / d)
    loop (k + 1) n w fun i w => do
      let a ← w.rd (i + k * n)
      let d ← w.rd (k + k * n)
      let w ← loop (k + 1) n w fun j w => do
        let u ← w.rd (i + j * n)
        let v ← w.rd (k + j * n)
        w.wr (i + j * n) (u - a * d * v)
      w.wr (i + k * n) (a * d)

/-- `memcpy(lu,a,n*n*sizeof)`, `for(i=0;i<n*n;i++) w[i]=a[i]` -/
def copyN (m : Nat) (a w : Arr R) : Option (Arr R) :=
  loop 0 m w fun i w => do
    let v ← a.rd i
    w.wr i v

/-- column `k` of the inverse. src/array/lis_array.c:935-955 -/
def geCol (n k : Nat) (lu a : Arr R) : Option (Arr R) := do
  let a ← loop 0 n a fun i a => do
    let t ← loop 0 i (if i = k then (1 : R) else 0) fun j t => do
      let p ← mulAt id lu a (i + j * n) (j + k * n)
      pure (t - p)
    a.wr (i + k * n) t
  loopDown 0 n a fun i a => do
    let t ← a.rd (i + k * n)
    let t ← loop (i + 1) n t fun j t => do
      let p ← mulAt id lu a (i + j * n) (j + k * n)
      pure (t - p)
    let d ← lu.rd (i + i * n)
    a.wr (k * n + i) (t * d)

/-- `lis_array_ge`; `junk` is the fresh block `lu`. src/array/lis_array.c:906-957 -/
def arrayGe (n : Nat) (junk : Nat → R) (a : Arr R) : Option (Arr R) := do
  let lu ← copyN (n * n) a (Arr.malloc (n * n) junk)
  let lu ← luElim n lu
  loop 0 n a fun k a => geCol n k lu a

/-- `lis_array_solve`; returns `x` and the work array. src/array/lis_array.c:959-1023 -/
def arraySolve (n : Nat) (a b x w : Arr R) : Option (Arr R × Arr R) := do
  let w ← copyN (n * n) a w
  match n with
  | 1 => do
    let u ← b.rd 0
    let v ← w.rd 0
    let x ← x.wr 0 (u / v)
    pure (x, w)
  | 2 => do
    let w0 ← w.rd 0
    let w ← w.wr 0 (1 / w0)
    let w1 ← w.rd 1
    let w0 ← w.rd 0
    let w ← w.wr 1 (w1 * w0)
    let w3 ← w.rd 3
    let w1 ← w.rd 1
    let w2 ← w.rd 2
    let w ← w.wr 3 (w3 - w1 * w2)
    let w3 ← w.rd 3
    let w ← w.wr 3 (1 / w3)
    let b0 ← b.rd 0
    let x ← x.wr 0 b0
    let b1 ← b.rd 1
    let w1 ← w.rd 1
    let x0 ← x.rd 0
    let x ← x.wr 1 (b1 - w1 * x0)
    let x1 ← x.rd 1
    let w3 ← w.rd 3
    let x ← x.wr 1 (x1 * w3)
    let x0 ← x.rd 0
    let w2 ← w.rd 2
    let x1 ← x.rd 1
    let x ← x.wr 0 (x0 - w2 * x1)
    let x0 ← x.rd 0
    let w0 ← w.rd 0
    let x ← x.wr 0 (x0 * w0)
    pure (x, w)
  | n => do
    let w ← luElim n w
    let x ← loop 0 n x fun i x => do
      let v ← b.rd i
      let x ← x.wr i v
      loop 0 i x fun j x => do
        let xi ← x.rd i
        let p ← mulAt id w x (i + j * n) j
        x.wr i (xi - p)
    let x ← loopDown 0 n x fun i x => do
      let x ← loop (i + 1) n x fun j x => do
        let xi ← x.rd i
        let p ← mulAt id w x (i + j * n) j
        x.wr i (xi - p)
      let xi ← x.rd i
      let d ← w.rd (i + i * n)
      x.wr i (xi * d)
    pure (x, w)
end

end Lis
