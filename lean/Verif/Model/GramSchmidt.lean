import Verif.Base.C

/-!
# Dense QR factorizations and the QR algorithm (src/array/lis_array.c:1025-1184)

Real scalars.  Matrices are stored by columns, element (i,j) at `i+j*n`.  `sqrt`, `fabs` are those of libm, `small v` is
the test `v < 1e-12`.  The arrays are distinct.
-/

namespace Lis
variable {R : Type} [Zero R] [Add R] [Sub R] [Mul R] [Div R]

/-- `lis_array_nrm2` (real: `conj(x)*x = x*x`). src/array/lis_array.c:364-382 -/
def arrayNrm2 (sqrt : R → R) (n : Nat) (x : Arr R) : Option R := do
  let t ← loop 0 n (0 : R) fun i t => do
    let v ← x.rd i
    pure (t + v * v)
  pure (sqrt t)

/-- `for (i=0;i<n*n;i++) { q[i] = 0.0; r[i] = 0.0; }`. src/array/lis_array.c:1041-1045, 1096-1100 -/
def gsZero (m : Nat) (s : Arr R × Arr R) : Option (Arr R × Arr R) :=
  loop 0 m s fun i s => do
    let q ← s.1.wr i 0
    let r ← s.2.wr i 0
    pure (q, r)

/-- `a_k[i] = a[i+k*n]`. src/array/lis_array.c:1049-1052, 1104-1107 -/
def gsCol (n k : Nat) (a ak : Arr R) : Option (Arr R) :=
  loop 0 n ak fun i ak => do
    let v ← a.rd (i + k * n)
    ak.wr i v

/-- `r[j+k*n] = 0; for (i…) r[j+k*n] += q[i+j*n] * a[i+k*n];`. src/array/lis_array.c:1055-1059, 1117-1121 -/
def gsDot (n j k : Nat) (a q r : Arr R) : Option (Arr R) := do
  let r ← r.wr (j + k * n) 0
  loop 0 n r fun i r => do
    let u ← r.rd (j + k * n)
    let v ← q.rd (i + j * n)
    let w ← a.rd (i + k * n)
    r.wr (j + k * n) (u + v * w)

/-- `for (i…) x[o+i] -= r[j+k*n] * q[i+j*n];` (`o = 0` for `a_k`, `o = k*n` for column `k` of `a`).
src/array/lis_array.c:1060-1063, 1122-1125 -/
def gsSub (n j k o : Nat) (q r x : Arr R) : Option (Arr R) :=
  loop 0 n x fun i x => do
    let u ← x.rd (i + o)
    let v ← r.rd (j + k * n)
    let w ← q.rd (i + j * n)
    x.wr (i + o) (u - v * w)

/-- `for (i…) q[i+k*n] = a_k[i] / nrm2;`. src/array/lis_array.c:1068-1071, 1110-1114 -/
def gsNormalize (n k : Nat) (ak : Arr R) (nrm : R) (q : Arr R) : Option (Arr R) :=
  loop 0 n q fun i q => do
    let v ← ak.rd i
    q.wr (i + k * n) (v / nrm)

/-- column `k` of `lis_array_cgs`; `true` is the `break`. src/array/lis_array.c:1047-1073 -/
def cgsStep (sqrt : R → R) (small : R → Bool) (n : Nat) (a : Arr R) (k : Nat) (s : Arr R × Arr R × Arr R) :
    Option (Bool × (Arr R × Arr R × Arr R)) := do
  let ak ← gsCol n k a s.2.2
  let t ← loop 0 k (s.2.1, ak) fun j t => do
    let r ← gsDot n j k a s.1 t.1
    let ak ← gsSub n j k 0 s.1 r t.2
    pure (r, ak)
  let nrm ← arrayNrm2 sqrt n t.2
  let r ← t.1.wr (k + k * n) nrm
  if small nrm then pure (true, (s.1, r, t.2))
  else do
    let q ← gsNormalize n k t.2 nrm s.1
    pure (false, (q, r, t.2))

/-- `lis_array_cgs`: `Q R = A` by classical Gram-Schmidt; returns `q`, `r`. src/array/lis_array.c:1027-1080 -/
def arrayCgs (sqrt : R → R) (small : R → Bool) (junk : Nat → R) (n : Nat) (a q r : Arr R) : Option (Arr R × Arr R) := do
  let s ← gsZero (n * n) (q, r)
  let s ← loopB 0 n (s.1, s.2, Arr.malloc n junk) (cgsStep sqrt small n a)
  pure (s.1, s.2.1)

/-- `for (i…) { if (nrm2<tol) break; q[i+j*n] = a_j[i] / nrm2; }`: as `nrm2` does not change in the loop the test is done
once. src/array/lis_array.c:1110-1114 -/
def mgsNormalize (small : R → Bool) (n j : Nat) (aj : Arr R) (nrm : R) (q : Arr R) : Option (Arr R) :=
  if small nrm then some q else gsNormalize n j aj nrm q

/-- step `j` of `lis_array_mgs` on `(a, q, r, a_j)`. src/array/lis_array.c:1102-1127 -/
def mgsStep (sqrt : R → R) (small : R → Bool) (n j : Nat) (s : Arr R × Arr R × Arr R × Arr R) :
    Option (Arr R × Arr R × Arr R × Arr R) := do
  let aj ← gsCol n j s.1 s.2.2.2
  let nrm ← arrayNrm2 sqrt n aj
  let r ← s.2.2.1.wr (j + j * n) nrm
  let q ← mgsNormalize small n j aj nrm s.2.1
  let t ← loop (j + 1) n (s.1, r) fun k t => do
    let r ← gsDot n j k t.1 q t.2
    let a ← gsSub n j k (k * n) q r t.1
    pure (a, r)
  pure (t.1, q, t.2, aj)

/-- `lis_array_mgs`: modified Gram-Schmidt; `a` is overwritten. Returns `a`, `q`, `r`. src/array/lis_array.c:1082-1132 -/
def arrayMgs (sqrt : R → R) (small : R → Bool) (junk : Nat → R) (n : Nat) (a q r : Arr R) :
    Option (Arr R × Arr R × Arr R) := do
  let s ← gsZero (n * n) (q, r)
  let s ← loop 0 n (a, s.1, s.2, Arr.malloc n junk) (mgsStep sqrt small n)
  pure (s.1, s.2.1, s.2.2.1)

/-- `a[i+j*n] = 0; for (k…) a[i+j*n] += r[i+k*n] * q[k+j*n];`. src/array/lis_array.c:1157-1161 -/
def qrElem (n i j : Nat) (q r a : Arr R) : Option (Arr R) := do
  let a ← a.wr (i + j * n) 0
  loop 0 n a fun k a => do
    let u ← a.rd (i + j * n)
    let v ← r.rd (i + k * n)
    let w ← q.rd (k + j * n)
    a.wr (i + j * n) (u + v * w)

/-- `A = R Q`. src/array/lis_array.c:1153-1163 -/
def qrMul (n : Nat) (q r a : Arr R) : Option (Arr R) :=
  loop 0 n a fun j a => loop 0 n a fun i a => qrElem n i j q r a

/-- state of `lis_array_qr` -/
structure QrSt (R : Type) where
  a : Arr R
  q : Arr R
  r : Arr R
  iter : Nat
  err : R

/-- one iteration of `lis_array_qr`. src/array/lis_array.c:1149-1166 -/
def qrStep (sqrt fabs : R → R) (small : R → Bool) (junk : Nat → R) (n : Nat) (s : QrSt R) : Option (Bool × QrSt R) := do
  let c ← arrayCgs sqrt small junk n s.a s.q s.r
  let a ← qrMul n c.1 c.2 s.a
  let e ← a.rd 1
  pure (small (fabs e), ⟨a, c.1, c.2, s.iter + 1, fabs e⟩)

/-- `lis_array_qr` (`maxiter` is 100000 in the code; the block `a0` is not used).
src/array/lis_array.c:1134-1184 -/
def arrayQr (sqrt fabs : R → R) (small : R → Bool) (junk : Nat → R) (ejunk : R) (maxiter n : Nat) (a q r : Arr R) :
    Option (QrSt R) :=
  loopB 0 maxiter ⟨a, q, r, 0, ejunk⟩ fun _ s => qrStep sqrt fabs small junk n s

end Lis
