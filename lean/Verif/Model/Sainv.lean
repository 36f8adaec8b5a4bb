import Verif.Model.Convert1
import Verif.Model.Assembly
import Verif.Model.Vector

/-!
# Sparse approximate inverse preconditioner (`-p sainv`), src/precon/lis_precon_sainv.c

`lis_precon_create_sainv_csr` (the version in use, lines 107-381) computes vectors `W_i`, `Z_i` and numbers `d_i` by
biconjugation with dropping; `lis_psolve_sainv` applies `Z D W^H`.  Serial, double precision, `n = np` (no MPI).

The rows of `LIS_MATRIX_ILU` are separate blocks that grow by `realloc`; the arrays `nnz`, `nnz_ma`, `index`, `value` of
the structure are kept together as one record per row.  malloc and realloc succeed.  Scalars are arbitrary: `_max(·,fabs ·)`
and the drop test are parameters.
-/

namespace Lis
variable {R : Type}

/-- row `i` of a `LIS_MATRIX_ILU` in CR form: `nnz[i]`, `nnz_ma[i]`, `index[i]`, `value[i]`. include/lis.h:693-703 -/
structure SvRow (R : Type) where
  nnz : ℕ
  ma : ℕ
  idx : Arr ℕ
  val : Arr R

/-- `mx m v` is `_max(m,fabs(v))`; `keep nrm t` is `fabs(t)*nrm > tol` -/
structure SvOps (R : Type) where
  mx : R → R → R
  keep : R → R → Bool

/-- contents of fresh memory: `idx k c`, `val k c` for element `c` of a block of row `k` -/
structure SvJunk (R : Type) where
  idx : ℕ → ℕ → ℕ
  val : ℕ → ℕ → R
  work : ℕ → ℕ
  conv : ℕ → ℕ → ℕ
  convV : ℕ → R

/-- `lis_matrix_ilu_premalloc` for one row, then `value[i][0] = 1.0; index[i][0] = i; nnz[i] = 1;`.
src/matrix/lis_matrix_ilu.c:205-248, src/precon/lis_precon_sainv.c:205-213 -/
def svInitRow [One R] (J : SvJunk R) (annz i : ℕ) : Option (SvRow R) := do
  let val ← (Arr.malloc annz (J.val i)).wr 0 1
  let idx ← (Arr.malloc annz (J.idx i)).wr 0 i
  pure ⟨1, annz, idx, val⟩

/-- `nrm = 0; for(j in row i of A) nrm = _max(nrm,fabs(A->value[j])); nrm = 1.0/nrm;`.
src/precon/lis_precon_sainv.c:217-222 -/
def svNrm [Zero R] [One R] [Div R] (F : SvOps R) (A : Csr R) (i : ℕ) : Option R := do
  let lo ← A.ptr.rd i
  let hi ← A.ptr.rd (i + 1)
  let m ← loop lo hi 0 fun j m => do
    let v ← A.value.rd j
    pure (F.mx m v)
  pure (1 / m)

/-- `l` (or `u`), the marks `ww`, the list `il` (or `iu`) and its length `cl` (or `cu`) -/
structure SvAcc (R : Type) where
  val : Arr R
  ww : Arr ℕ
  il : Arr ℕ
  cl : ℕ

/-- `if( ww[jj]==0 ) { ww[jj] = 1; il[cl++] = jj; }`. src/precon/lis_precon_sainv.c:236-240 -/
def svSee (jj : ℕ) (s : SvAcc R) : Option (SvAcc R) := do
  let f ← s.ww.rd jj
  if f = 0 then do
    let ww ← s.ww.wr jj 1
    let il ← s.il.wr s.cl jj
    pure ⟨s.val, ww, il, s.cl + 1⟩
  else pure s

/-- one element of the product: `jj = index[j]; if( jj>i ) { l[jj] += value[j]*z; … }`; with `all` the sum is made for every
`jj` and only the list is restricted to `jj>i`. src/precon/lis_precon_sainv.c:232-241, 254-263 -/
def svScan1 [Add R] [Mul R] (index : Arr ℕ) (value : Arr R) (all : Bool) (i : ℕ) (z : R) (j : ℕ) (s : SvAcc R) :
    Option (SvAcc R) := do
  let jj ← index.rd j
  if all = true ∨ i < jj then do
    let v ← value.rd j
    let o ← s.val.rd jj
    let val ← s.val.wr jj (o + v * z)
    if i < jj then svSee jj ⟨val, s.ww, s.il, s.cl⟩ else pure ⟨val, s.ww, s.il, s.cl⟩
  else pure s

/-- `l = A Z_i` with the columns of `B`, or `u = W_i' A` with the rows of `A`: `cl = 0; memset(l,0,…); for(k<nnz) { ii =
index[k]; for(j=ptr[ii];j<ptr[ii+1];j++) … }  for(k<cl) ww[il[k]] = 0;`. src/precon/lis_precon_sainv.c:225-244, 247-266 -/
def svScan [Zero R] [Add R] [Mul R] (n : ℕ) (ptr index : Arr ℕ) (value : Arr R) (all : Bool) (i : ℕ) (z : SvRow R)
    (ww il : Arr ℕ) : Option (SvAcc R) := do
  let s ← loop 0 z.nnz (⟨⟨n, fun _ => 0⟩, ww, il, 0⟩ : SvAcc R) fun k s => do
    let ii ← z.idx.rd k
    let lo ← ptr.rd ii
    let hi ← ptr.rd (ii + 1)
    let zk ← z.val.rd k
    loop lo hi s fun j s => svScan1 index value all i zk j s
  let ww ← loop 0 s.cl s.ww fun k ww => do
    let j ← s.il.rd k
    ww.wr j 0
  pure ⟨s.val, ww, s.il, s.cl⟩

/-- `t = 0; for(k<Z->nnz[i]) t += u[Z->index[i][k]]*Z->value[i][k];`. src/precon/lis_precon_sainv.c:269-273 -/
def svPivot [Zero R] [Add R] [Mul R] (u : Arr R) (z : SvRow R) : Option R :=
  loop 0 z.nnz 0 fun k t => do
    let c ← z.idx.rd k
    let uc ← u.rd c
    let v ← z.val.rd k
    pure (t + uc * v)

/-- `if( nnz[j]==nnz_ma[j] ) { nnz_ma[j] += annz; realloc }`. src/precon/lis_precon_sainv.c:302-307,
src/matrix/lis_matrix_ilu.c:252-272 -/
def svGrow (J : SvJunk R) (annz j : ℕ) (r : SvRow R) : Option (SvRow R) :=
  if r.nnz = r.ma then do
    let idx ← r.idx.realloc (r.ma + annz) (J.idx j)
    let val ← r.val.realloc (r.ma + annz) (J.val j)
    pure ⟨r.nnz, r.ma + annz, idx, val⟩
  else pure r

/-- `jk = nnz[j]; index[j][jk] = c; value[j][jk] = v; nnz[j]++;` after growing.
src/precon/lis_precon_sainv.c:302-311 -/
def svPush (J : SvJunk R) (annz j c : ℕ) (v : R) (r : SvRow R) : Option (SvRow R) := do
  let r ← svGrow J annz j r
  let idx ← r.idx.wr r.nnz c
  let val ← r.val.wr r.nnz v
  pure ⟨r.nnz + 1, r.ma, idx, val⟩

/-- `for(k<nnz[j]) ww[index[j][k]] = k+1;`. src/precon/lis_precon_sainv.c:282-285 -/
def svMark (r : SvRow R) (ww : Arr ℕ) : Option (Arr ℕ) :=
  loop 0 r.nnz ww fun k ww => do
    let c ← r.idx.rd k
    ww.wr c (k + 1)

/-- `for(k<nnz[j]) ww[index[j][k]] = 0;`. src/precon/lis_precon_sainv.c:315-318 -/
def svUnmark (r : SvRow R) (ww : Arr ℕ) : Option (Arr ℕ) :=
  loop 0 r.nnz ww fun k ww => do
    let c ← r.idx.rd k
    ww.wr c 0

/-- element `ik` of row `i` is subtracted from row `j`: `t = dd*value[i][ik]; if( fabs(t)*nrm > tol ) …`, the element of row
`j` with this index is changed or a new one is appended. src/precon/lis_precon_sainv.c:288-313 -/
def svSub1 [Mul R] [Sub R] [Neg R] (F : SvOps R) (J : SvJunk R) (annz j : ℕ) (nrm dd : R) (ri : SvRow R) (ww : Arr ℕ)
    (ik : ℕ) (r : SvRow R) : Option (SvRow R) := do
  let c ← ri.idx.rd ik
  let jk ← ww.rd c
  let v ← ri.val.rd ik
  if F.keep nrm (dd * v) then
    if jk ≠ 0 then do
      let o ← r.val.rd (jk - 1)
      let val ← r.val.wr (jk - 1) (o - dd * v)
      pure ⟨r.nnz, r.ma, r.idx, val⟩
    else svPush J annz j c (-(dd * v)) r
  else pure r

/-- the body of the loop over `il`: row `j` of `W` (or `Z`) minus `dd` times row `i`.
src/precon/lis_precon_sainv.c:282-318, 327-363 -/
def svSub [Mul R] [Sub R] [Neg R] (F : SvOps R) (J : SvJunk R) (annz i j : ℕ) (nrm dd : R) (s : Arr (SvRow R) × Arr ℕ) :
    Option (Arr (SvRow R) × Arr ℕ) := do
  let rj ← s.1.rd j
  let ww ← svMark rj s.2
  let ri ← s.1.rd i
  let rj ← loop 0 ri.nnz rj fun ik r => svSub1 F J annz j nrm dd ri ww ik r
  let ww ← svUnmark rj ww
  let M ← s.1.wr j rj
  pure (M, ww)

/-- `for(jj<cl) { j = il[jj]; dd = l[j]*d[i]; … }`. src/precon/lis_precon_sainv.c:278-319, 323-364 -/
def svSubAll [Mul R] [Sub R] [Neg R] (F : SvOps R) (J : SvJunk R) (annz i : ℕ) (nrm : R) (l : Arr R) (il : Arr ℕ) (cl : ℕ)
    (di : R) (s : Arr (SvRow R) × Arr ℕ) : Option (Arr (SvRow R) × Arr ℕ) :=
  loop 0 cl s fun jj s => do
    let j ← il.rd jj
    let lj ← l.rd j
    svSub F J annz i j nrm (lj * di) s

/-- `precon->L`, `precon->U`, `precon->D` and the work arrays -/
structure SvSt (R : Type) where
  W : Arr (SvRow R)
  Z : Arr (SvRow R)
  D : Arr R
  ww : Arr ℕ
  il : Arr ℕ
  iu : Arr ℕ

/-- step `i` of the loop over the rows. src/precon/lis_precon_sainv.c:214-365 -/
def svStep [Zero R] [One R] [Add R] [Mul R] [Sub R] [Neg R] [Div R] (F : SvOps R) (J : SvJunk R) (A : Csr R) (B : Csc R)
    (i : ℕ) (s : SvSt R) : Option (SvSt R) := do
  let nrm ← svNrm F A i
  let zi ← s.Z.rd i
  let l ← svScan A.n B.ptr B.index B.value false i zi s.ww s.il
  let wi ← s.W.rd i
  let u ← svScan A.n A.ptr A.index A.value true i wi l.ww s.iu
  let t ← svPivot u.val zi
  let D ← s.D.wr i (1 / t)
  let (W, ww) ← svSubAll F J (A.n / 10) i nrm l.val l.il l.cl (1 / t) (s.W, u.ww)
  let (Z, ww) ← svSubAll F J (A.n / 10) i nrm u.val u.il u.cl (1 / t) (s.Z, ww)
  pure ⟨W, Z, D, ww, l.il, u.il⟩

/-- the two factors and the pivots -/
structure SvFact (R : Type) where
  W : Arr (SvRow R)
  Z : Arr (SvRow R)
  D : Arr R

/-- an array of `n` rows, `svInitRow` each -/
def svInit [One R] (J : SvJunk R) (annz n : ℕ) (M : Arr (SvRow R)) : Option (Arr (SvRow R)) :=
  loop 0 n M fun i M => do
    let r ← svInitRow J annz i
    M.wr i r

/-- `lis_precon_create_sainv_csr`; `annz = A->n / 10`. `W0`, `Z0`, `D0` are the arrays as allocated.
src/precon/lis_precon_sainv.c:120-381 -/
def createSainv [Zero R] [One R] [Add R] [Mul R] [Sub R] [Neg R] [Div R] (F : SvOps R) (J : SvJunk R) (A : Csr R)
    (W0 Z0 : Arr (SvRow R)) (D0 : Arr R) : Option (SvFact R) := do
  let B ← csr2csc J.conv J.convV A
  let ww ← loop 0 A.n (.malloc A.n J.work) fun i (w : Arr ℕ) => w.wr i 0
  let W ← svInit J (A.n / 10) A.n W0
  let Z ← svInit J (A.n / 10) A.n Z0
  let s ← loop 0 A.n (⟨W, Z, D0, ww, .malloc A.n J.work, .malloc A.n J.work⟩ : SvSt R) fun i s => svStep F J A B i s
  pure ⟨s.W, s.Z, s.D⟩

/-- `lis_matvech_ilu`, serial: `y[i] = sum_j conj(value[i][j]) * x[index[i][j]]`. src/matrix/lis_matrix_ilu.c:277-375 -/
def matvechIlu [Zero R] [Add R] [Mul R] (conj : R → R) (n : ℕ) (M : Arr (SvRow R)) (x y : Arr R) : Option (Arr R) :=
  loop 0 n y fun i y => do
    let r ← M.rd i
    let t ← loop 0 r.nnz 0 fun j t => do
      let jj ← r.idx.rd j
      let v ← r.val.rd j
      let xj ← x.rd jj
      pure (t + conj v * xj)
    y.wr i t

/-- `lis_matvec_ilu`, serial: `y = 0; y[index[i][j]] += value[i][j] * x[i]`. src/matrix/lis_matrix_ilu.c:378-455 -/
def matvecIlu [Zero R] [Add R] [Mul R] (n np : ℕ) (M : Arr (SvRow R)) (x y : Arr R) : Option (Arr R) := do
  let y ← loop 0 np y fun i y => y.wr i 0
  loop 0 n y fun i y => do
    let r ← M.rd i
    loop 0 r.nnz y fun j y => do
      let jj ← r.idx.rd j
      let o ← y.rd jj
      let v ← r.val.rd j
      let xi ← x.rd i
      y.wr jj (o + v * xi)

/-- `lis_psolve_sainv` (with `W`, `Z`, `conjD` the identity) and `lis_psolveh_sainv` (with `Z`, `W` and the conjugation);
`tmp` is `precon->temp`. src/precon/lis_precon_sainv.c:735-799, 803-866 -/
def psolveSainv [Zero R] [Add R] [Mul R] (conj conjD : R → R) (n : ℕ) (W Z : Arr (SvRow R)) (D tmp : Arr R) (b x : Arr R) :
    Option (Arr R) := do
  let x ← matvechIlu conj n W b x
  let t ← loop 0 n tmp fun i t => do
    let xi ← x.rd i
    let di ← D.rd i
    t.wr i (xi * conjD di)
  matvecIlu n n Z t x

end Lis
