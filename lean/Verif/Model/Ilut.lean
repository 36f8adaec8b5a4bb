import Verif.Model.Ilu
import Verif.Model.Sort
import Mathlib.Algebra.Order.Group.Unbundled.Abs
import Mathlib.Algebra.Field.Defs

/-!
# ILUT preconditioner (`-p ilut`), CSR, serial: src/precon/lis_precon_ilut.c

Real scalars (`fabs` is the absolute value).  Rows of the factors as in `Model/Ilu`; the work array `iw` holds positions or
`-1`, as in the code; work arrays have arbitrary initial contents.  malloc does not fail.  `lfil` (computed from `nnz`, `n` and
`-ilut_rate`, :396) is a parameter, a natural number.
-/

namespace Lis
variable {R : Type}

/-- work arrays and counters of one row. src/precon/lis_precon_ilut.c:374-376 -/
structure TW (R : Type) where
  jbuf : Arr ℕ
  w : Arr R
  iw : Arr ℤ
  lenl : ℕ
  lenu : ℕ

/-- `jbuf[lenl] = col; iw[col] = lenl; w[lenl] = t; lenl++;`. src/precon/lis_precon_ilut.c:460-463, 535-538 -/
def twPushL (col : ℕ) (t : R) (s : TW R) : Option (TW R) := do
  let jbuf ← s.jbuf.wr s.lenl col
  let iw ← s.iw.wr col s.lenl
  let w ← s.w.wr s.lenl t
  pure ⟨jbuf, w, iw, s.lenl + 1, s.lenu⟩

/-- `lenu++; jpos = i + lenu; jbuf[jpos] = col; iw[col] = jpos; w[jpos] = t;`.
src/precon/lis_precon_ilut.c:469-474, 520-524 -/
def twPushU (i col : ℕ) (t : R) (s : TW R) : Option (TW R) := do
  let jbuf ← s.jbuf.wr (i + (s.lenu + 1)) col
  let iw ← s.iw.wr col (i + (s.lenu + 1) : ℕ)
  let w ← s.w.wr (i + (s.lenu + 1)) t
  pure ⟨jbuf, w, iw, s.lenl, s.lenu + 1⟩

/-- the elements of row `i`. src/precon/lis_precon_ilut.c:445-477 -/
def twScan [Zero R] (A : Csr R) (i : ℕ) (s : TW R) : Option (TW R) := do
  let jbuf ← s.jbuf.wr i i
  let w ← s.w.wr i 0
  let iw ← s.iw.wr i i
  let a ← A.ptr.rd i
  let b ← A.ptr.rd (i + 1)
  loop a b ⟨jbuf, w, iw, 0, 0⟩ fun j s => do
    let col ← A.index.rd j
    let t ← A.value.rd j
    if col < i then twPushL col t s
    else if col = i then do
      let w ← s.w.wr i t
      pure { s with w := w }
    else twPushU i col t s

/-- smallest remaining column `(jrow,jpos)`. src/precon/lis_precon_ilut.c:484-493 -/
def twMin (j : ℕ) (s : TW R) : Option (ℕ × ℕ) := do
  let c ← s.jbuf.rd j
  loop (j + 1) s.lenl (c, j) fun k p => do
    let c ← s.jbuf.rd k
    if c < p.1 then pure (c, k) else pure p

/-- exchange of positions `j` and `jpos`. src/precon/lis_precon_ilut.c:494-504 -/
def twSwap (j : ℕ) (p : ℕ × ℕ) (s : TW R) : Option (TW R) :=
  if p.2 = j then some s else do
    let col ← s.jbuf.rd j
    let v ← s.jbuf.rd p.2
    let jbuf ← s.jbuf.wr j v
    let jbuf ← jbuf.wr p.2 col
    let iw ← s.iw.wr p.1 j
    let iw ← iw.wr col p.2
    let t ← s.w.rd j
    let t' ← s.w.rd p.2
    let w ← s.w.wr j t'
    let w ← w.wr p.2 t
    pure ⟨jbuf, w, iw, s.lenl, s.lenu⟩

/-- one element of row `jrow` of `U`: dropped if it is small and its column is not in the row, otherwise added or appended.
src/precon/lis_precon_ilut.c:511-545 -/
def twUpd [Field R] [LinearOrder R] (tolnorm : R) (i : ℕ) (fact : R) (idx : Arr ℕ) (val : Arr R) (k : ℕ) (s : TW R) :
    Option (TW R) := do
  let col ← idx.rd k
  let jpos ← s.iw.rd col
  let v ← val.rd k
  if |(-fact * v)| < tolnorm ∧ jpos = -1 then pure s
  else if jpos = -1 then
    if i ≤ col then twPushU i col (-fact * v) s else twPushL col (-fact * v) s
  else do
    let o ← s.w.rdI jpos
    let w ← s.w.wrI jpos (o + -fact * v)
    pure { s with w := w }

/-- one pass of `while( ++j < lenl )`. src/precon/lis_precon_ilut.c:482-552 -/
def twPivot [Field R] [LinearOrder R] (tolnorm : R) (i : ℕ) (U : IluMat R) (D : Arr R) (j : ℕ) (s : TW R) :
    Option (TW R) := do
  let p ← twMin j s
  let s ← twSwap j p s
  let o ← s.w.rd j
  let d ← D.rd p.1
  let w ← s.w.wr j (o * d)
  let iw ← s.iw.wr p.1 (-1)
  let m ← U.nnz.rd p.1
  loop 0 m { s with w := w, iw := iw } fun k s => twUpd tolnorm i (o * d) (U.index p.1) (U.value p.1) k s

/-- `iw[i] = -1; for(j<lenu) iw[jbuf[i+j+1]] = -1;`. src/precon/lis_precon_ilut.c:554-558 -/
def twClear (i : ℕ) (s : TW R) : Option (Arr ℤ) := do
  let iw ← s.iw.wr i (-1)
  loop 0 s.lenu iw fun j iw => do
    let c ← s.jbuf.rd (i + j + 1)
    iw.wr c (-1)

/-- `len = _min(lfil,m); wn[j] = fabs(w[off+j]); iw[j] = off+j; lis_sort_di(0,m-1,wn,iw); lis_sort_i(0,len-1,iw);` and the copy of the
first `len` elements to a new row; then `iw[j] = -1`.  `off` is 0 for `L`, `i+1` for `U`.
src/precon/lis_precon_ilut.c:563-584, 586-607 -/
def twKeep [Field R] [LinearOrder R] (junkI : ℕ → ℕ) (junkV : ℕ → R) (lfil off m : ℕ) (jbuf : Arr ℕ) (w : Arr R)
    (wn : Arr R) (iw : Arr ℤ) : Option (Arr ℕ × Arr R × Arr R × Arr ℤ) := do
  let q ← loop 0 m (wn, iw) fun j q => do
    let v ← w.rd (off + j)
    let wn ← q.1.wr j |v|
    let iw ← q.2.wr j ((off + j : ℕ) : ℤ)
    pure (wn, iw)
  let q ← lisSortDi (fun x : R => x) 0 (m - 1 : ℤ) q
  let iw ← lisSortI 0 ((min lfil m : ℕ) - 1 : ℤ) q.2
  let r ← loop 0 (min lfil m) (Arr.malloc (min lfil m) junkI, Arr.malloc (min lfil m) junkV) fun j r => do
    let jpos ← iw.rd j
    let c ← jbuf.rdI jpos
    let v ← w.rdI jpos
    let idx ← r.1.wr j c
    let val ← r.2.wr j v
    pure (idx, val)
  let iw ← loop 0 m iw fun j iw => iw.wr j (-1)
  pure (r.1, r.2, q.1, iw)

/-- the factors and the work arrays -/
structure TSt (R : Type) where
  F : IluFact R
  jbuf : Arr ℕ
  w : Arr R
  wn : Arr R
  iw : Arr ℤ

/-- `tolnorm = tol * (sum of fabs over the row / its length)`. src/precon/lis_precon_ilut.c:437-443 -/
def twTol [Field R] [LinearOrder R] (tol : R) (A : Csr R) (i : ℕ) : Option R := do
  let a ← A.ptr.rd i
  let b ← A.ptr.rd (i + 1)
  let t ← loop a b 0 fun j t => do
    let v ← A.value.rd j
    pure (t + |v|)
  pure (tol * (t / ((b - a : ℕ) : R)))

/-- `nnz[i] = len; index[i] = …; value[i] = …` -/
def IluMat.setRow (M : IluMat R) (i len : ℕ) (idx : Arr ℕ) (val : Arr R) : Option (IluMat R) := do
  let nnz ← M.nnz.wr i len
  pure ⟨nnz, fun k => if k = i then idx else M.index k, fun k => if k = i then val else M.value k⟩

/-- row `i`. src/precon/lis_precon_ilut.c:435-607 -/
def ilutRow [Field R] [LinearOrder R] (junkI : ℕ → ℕ) (junkV : ℕ → R) (A : Csr R) (tol : R) (lfil i : ℕ) (st : TSt R) :
    Option (TSt R) := do
  let tn ← twTol tol A i
  let s ← twScan A i ⟨st.jbuf, st.w, st.iw, 0, 0⟩
  let r ← whileL (fun q : ℕ × TW R => some (decide (q.1 < q.2.lenl)))
    (fun q => (twPivot tn i st.F.U st.F.D q.1 q.2).map fun s => (q.1 + 1, s)) (0, s)
  let iw ← twClear i r.2
  let d ← r.2.w.rd i
  let D ← st.F.D.wr i (1 / d)
  let kl ← twKeep junkI junkV lfil 0 r.2.lenl r.2.jbuf r.2.w st.wn iw
  let L ← st.F.L.setRow i (min lfil r.2.lenl) kl.1 kl.2.1
  let ku ← twKeep junkI junkV lfil (i + 1) r.2.lenu r.2.jbuf r.2.w kl.2.2.1 kl.2.2.2
  let U ← st.F.U.setRow i (min lfil r.2.lenu) ku.1 ku.2.1
  pure ⟨⟨L, D, U⟩, r.2.jbuf, r.2.w, ku.2.2.1, ku.2.2.2⟩

/-- `lis_precon_create_ilut_csr`, serial. `nnz[i] = 0`, `index[i] = NULL` come from `lis_matrix_ilu_create`; `junkD` is `D` as allocated.
src/precon/lis_precon_ilut.c:373-616 -/
def createIlutCsr [Field R] [LinearOrder R] (junkI : ℕ → ℕ) (junkV : ℕ → R) (junkW : ℕ → ℤ) (A : Csr R) (tol : R) (lfil : ℕ)
    (junkD : Arr R) : Option (IluFact R) := do
  let iw ← loop 0 A.n (Arr.malloc A.n junkW) fun i iw => iw.wr i (-1)
  let nul : IluMat R := ⟨⟨A.n, fun _ => 0⟩, fun _ => Arr.malloc 0 junkI, fun _ => Arr.malloc 0 junkV⟩
  let s ← loop 0 A.n (⟨⟨nul, junkD, nul⟩, Arr.malloc A.n junkI, Arr.malloc (A.n + 1) junkV, Arr.malloc A.n junkV, iw⟩ : TSt R)
    fun i s => ilutRow junkI junkV A tol lfil i s
  pure s.F

/-- `lis_psolve_ilut_csr`, serial: the text of `lis_psolve_iluk_csr`. src/precon/lis_precon_ilut.c:767-784 -/
def psolveIlut [Mul R] [Sub R] (n : ℕ) (F : IluFact R) (b x : ℕ) (h : Vecs R) : Option (Vecs R) := psolveIluk n F b x h

/-- `lis_psolveh_ilut_csr`, serial: as `lis_psolveh_iluk_csr`, but `D` is not conjugated.
src/precon/lis_precon_ilut.c:969-985 -/
def psolvehIlut [Mul R] [Sub R] (conj : R → R) (n : ℕ) (F : IluFact R) (b x : ℕ) (h : Vecs R) : Option (Vecs R) := do
  let r ← vectorCopy b x h
  let h ← loop 0 n r.2 fun i h => do
    let d ← F.D.rd i
    let xi ← vrd h x i
    let h ← vwr h x i (d * xi)
    iluScatterH conj F.U x i h
  loopDown 0 n h fun i h => iluScatterH conj F.L x i h

end Lis
