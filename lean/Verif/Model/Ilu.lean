import Verif.Model.Vector
import Verif.Spec.Formats

/-!
# ILU(p) preconditioner, CSR, serial: src/precon/lis_precon_iluk.c

Rows of the factors are separate blocks (`L->index[i]`, `L->value[i]`); a block of size 0 stands for the NULL pointer of
an empty row.  The markers `-1` of the work arrays `iw`, `jw` are `none`.  Work arrays have arbitrary initial contents
(`junk`).  malloc does not fail.
-/

namespace Lis
variable {R : Type}

/-- `struct LIS_MATRIX_ILU_STRUCT` in CR form: include/lis.h:693-703; src/matrix/lis_matrix_ilu.c:52-128 -/
structure IluMat (R : Type) where
  nnz : Arr ℕ
  index : ℕ → Arr ℕ
  value : ℕ → Arr R

/-- `precon->L`, `precon->D`, `precon->U` -/
structure IluFact (R : Type) where
  L : IluMat R
  D : Arr R
  U : IluMat R

/-- work arrays and counters of `lis_symbolic_fact_csr`. src/precon/lis_precon_iluk.c:457-462 -/
structure SymW where
  jbuf : Arr ℕ
  levls : Arr ℕ
  iw : Arr (Option ℕ)
  incl : ℕ
  incu : ℕ

/-- `jbuf[incl]=col; levls[incl]=lv; iw[col]=incl++`. src/precon/lis_precon_iluk.c:531-533, 580-582 -/
def symPushL (col lv : ℕ) (s : SymW) : Option SymW := do
  let jbuf ← s.jbuf.wr s.incl col
  let levls ← s.levls.wr s.incl lv
  let iw ← s.iw.wr col (some s.incl)
  pure { s with jbuf := jbuf, levls := levls, iw := iw, incl := s.incl + 1 }

/-- `jbuf[incu]=col; levls[incu]=lv; iw[col]=incu++`. src/precon/lis_precon_iluk.c:537-539, 586-588 -/
def symPushU (col lv : ℕ) (s : SymW) : Option SymW := do
  let jbuf ← s.jbuf.wr s.incu col
  let levls ← s.levls.wr s.incu lv
  let iw ← s.iw.wr col (some s.incu)
  pure { s with jbuf := jbuf, levls := levls, iw := iw, incu := s.incu + 1 }

/-- a new column goes to the L or to the U part. src/precon/lis_precon_iluk.c:529-540, 578-589 -/
def symPush (i col lv : ℕ) (s : SymW) : Option SymW :=
  if col < i then symPushL col lv s else if i < col then symPushU col lv s else some s

/-- the stored columns of row `i`. src/precon/lis_precon_iluk.c:520-541 -/
def symScan (A : Csr R) (i : ℕ) (s : SymW) : Option SymW := do
  let a ← A.ptr.rd i
  let b ← A.ptr.rd (i + 1)
  loop a b { s with incl := 0, incu := i } fun j s => do
    let col ← A.index.rd j
    symPush i col 0 s

/-- smallest remaining column `(kmin,jmin)`. src/precon/lis_precon_iluk.c:546-555 -/
def symMin (jpiv : ℕ) (s : SymW) : Option (ℕ × ℕ) := do
  let k ← s.jbuf.rd jpiv
  loop (jpiv + 1) s.incl (k, jpiv) fun j p => do
    let c ← s.jbuf.rd j
    if c < p.1 then pure (c, j) else pure p

/-- exchange of positions `jpiv` and `jmin`. src/precon/lis_precon_iluk.c:557-568 -/
def symSwap (jpiv : ℕ) (p : ℕ × ℕ) (s : SymW) : Option SymW :=
  if p.2 = jpiv then some s else do
    let k ← s.jbuf.rd jpiv
    let jbuf ← s.jbuf.wr jpiv p.1
    let jbuf ← jbuf.wr p.2 k
    let iw ← s.iw.wr p.1 (some jpiv)
    let iw ← iw.wr k (some p.2)
    let l1 ← s.levls.rd jpiv
    let l2 ← s.levls.rd p.2
    let levls ← s.levls.wr jpiv l2
    let levls ← levls.wr p.2 l1
    pure { s with jbuf := jbuf, levls := levls, iw := iw }

/-- pattern under construction: `U`'s rows with their levels (`ulvl`), `L`'s rows -/
structure IluPat where
  nnzL : Arr ℕ
  idxL : ℕ → Arr ℕ
  nnzU : Arr ℕ
  idxU : ℕ → Arr ℕ
  ulvl : ℕ → Arr ℕ

/-- fill caused by one element of row `k` of `U`. src/precon/lis_precon_iluk.c:572-594 -/
def symFill1 (levfill i jpiv : ℕ) (P : IluPat) (k j : ℕ) (s : SymW) : Option SymW := do
  let col ← (P.idxU k).rd j
  let ul ← (P.ulvl k).rd j
  let lp ← s.levls.rd jpiv
  if levfill < ul + lp + 1 then pure s else
    match (← s.iw.rd col) with
    | none => symPush i col (ul + lp + 1) s
    | some ip => do
      let l ← s.levls.rd ip
      let levls ← s.levls.wr ip (min l (ul + lp + 1))
      pure { s with levls := levls }

/-- one pass of `while( ++jpiv < incl )`. src/precon/lis_precon_iluk.c:545-596 -/
def symPivot (levfill i jpiv : ℕ) (P : IluPat) (s : SymW) : Option SymW := do
  let p ← symMin jpiv s
  let s ← symSwap jpiv p s
  let m ← P.nnzU.rd p.1
  loop 0 m s fun j s => symFill1 levfill i jpiv P p.1 j s

/-- `for(j=lo;j<hi;j++) iw[jbuf[j]] = -1`. src/precon/lis_precon_iluk.c:597-598 -/
def symReset (lo hi : ℕ) (jbuf : Arr ℕ) (iw : Arr (Option ℕ)) : Option (Arr (Option ℕ)) :=
  loop lo hi iw fun j iw => do
    let c ← jbuf.rd j
    iw.wr c none

/-- `dst = malloc(k); memcpy(dst, src+off, k)`, nothing when `k==0`. src/precon/lis_precon_iluk.c:601-606, 610-617 -/
def symCopy (junk : ℕ → ℕ) (off k : ℕ) (src : Arr ℕ) : Option (Arr ℕ) :=
  loop 0 k (Arr.malloc k junk) fun j d => do
    let v ← src.rd (off + j)
    d.wr j v

/-- row `i`. src/precon/lis_precon_iluk.c:518-618 -/
def symRow (A : Csr R) (levfill : ℕ) (junk : ℕ → ℕ) (i : ℕ) (st : IluPat × SymW) : Option (IluPat × SymW) := do
  let P := st.1
  let s ← symScan A i st.2
  let r ← whileL (fun q : ℕ × SymW => some (decide (q.1 < q.2.incl)))
    (fun q => (symPivot levfill i q.1 P q.2).map fun s => (q.1 + 1, s)) (0, s)
  let s := r.2
  let iw ← symReset 0 s.incl s.jbuf s.iw
  let iw ← symReset i s.incu s.jbuf iw
  let nnzL ← P.nnzL.wr i s.incl
  let li ← symCopy junk 0 s.incl s.jbuf
  let nnzU ← P.nnzU.wr i (s.incu - i)
  let ui ← symCopy junk i (s.incu - i) s.jbuf
  let ul ← symCopy junk i (s.incu - i) s.levls
  pure (⟨nnzL, fun k => if k = i then li else P.idxL k, nnzU, fun k => if k = i then ui else P.idxU k,
    fun k => if k = i then ul else P.ulvl k⟩, { s with iw := iw })

/-- `lis_symbolic_fact_csr`: the patterns of `L` and `U` (and the levels `ulvl`). `nnz[i] = 0`, `index[i] = NULL` come from
`lis_matrix_ilu_create`, src/matrix/lis_matrix_ilu.c:88-92. src/precon/lis_precon_iluk.c:452-633 -/
def symbolicFactCsr (A : Csr R) (levfill : ℕ) (junk : ℕ → ℕ) (junkIw : ℕ → Option ℕ) : Option IluPat := do
  let iw ← loop 0 A.n (Arr.malloc A.n junkIw) fun i iw => iw.wr i none
  let nul : ℕ → Arr ℕ := fun _ => Arr.malloc 0 junk
  let r ← loop 0 A.n ((⟨⟨A.n, fun _ => 0⟩, nul, ⟨A.n, fun _ => 0⟩, nul, nul⟩,
      ⟨Arr.malloc A.n junk, Arr.malloc A.n junk, iw, 0, 0⟩) : IluPat × SymW)
    fun i st => symRow A levfill junk i st
  pure r.1

/-- values of the factors and the work array `jw` of `lis_numerical_fact_csr` -/
structure NumSt (R : Type) where
  Lv : ℕ → Arr R
  D : Arr R
  Uv : ℕ → Arr R
  jw : Arr (Option ℕ)

/-- `v[i][j] = f(v[i][j])` -/
def rowMod (v : ℕ → Arr R) (i j : ℕ) (f : R → R) : Option (ℕ → Arr R) := do
  let a ← (v i).rd j
  let b ← (v i).wr j (f a)
  pure fun k => if k = i then b else v k

/-- update of column `col` of row `i`, stored at position `jpos` of `L` or `U`, or in `D`.  (The assignments `=` of
:821-829 are updates with a constant function.)  `jpos = -1` would be an access outside the row.
src/precon/lis_precon_iluk.c:819-830, 843-854 -/
def numMod (i col : ℕ) (jpos : Option ℕ) (f : R → R) (s : NumSt R) : Option (NumSt R) :=
  if col < i then do
    let p ← jpos
    let v ← rowMod s.Lv i p f
    pure { s with Lv := v }
  else if col = i then do
    let a ← s.D.rd i
    let d ← s.D.wr i (f a)
    pure { s with D := d }
  else do
    let p ← jpos
    let v ← rowMod s.Uv i p f
    pure { s with Uv := v }

/-- `for(j…) { col = index[i][j]; jw[col] = j; value[i][j] = 0; }`. src/precon/lis_precon_iluk.c:795-800, 805-810 -/
def numMark [Zero R] (m : ℕ) (idx : Arr ℕ) (v : ℕ → Arr R) (i : ℕ) (jw : Arr (Option ℕ)) :
    Option ((ℕ → Arr R) × Arr (Option ℕ)) :=
  loop 0 m (v, jw) fun j q => do
    let col ← idx.rd j
    let jw ← q.2.wr col (some j)
    let v ← rowMod q.1 i j fun _ => 0
    pure (v, jw)

/-- `for(j…) { col = index[i][j]; jw[col] = -1; }`. src/precon/lis_precon_iluk.c:858-862, 864-868 -/
def numUnmark (m : ℕ) (idx : Arr ℕ) (jw : Arr (Option ℕ)) : Option (Arr (Option ℕ)) :=
  loop 0 m jw fun j jw => do
    let col ← idx.rd j
    jw.wr col none

/-- :795-810 -/
def numInit [Zero R] (P : IluPat) (i : ℕ) (s : NumSt R) : Option (NumSt R) := do
  let ml ← P.nnzL.rd i
  let q ← numMark ml (P.idxL i) s.Lv i s.jw
  let jw ← q.2.wr i (some i)
  let D ← s.D.wr i 0
  let mu ← P.nnzU.rd i
  let q' ← numMark mu (P.idxU i) s.Uv i jw
  pure ⟨q.1, D, q'.1, q'.2⟩

/-- the values of row `i` of `A`. src/precon/lis_precon_iluk.c:812-831 -/
def numScatter (A : Csr R) (i : ℕ) (s : NumSt R) : Option (NumSt R) := do
  let a ← A.ptr.rd i
  let b ← A.ptr.rd (i + 1)
  loop a b s fun j s => do
    let col ← A.index.rd j
    let jpos ← s.jw.rd col
    let v ← A.value.rd j
    numMod i col jpos (fun _ => v) s

/-- one element of row `jrow` of `U`. src/precon/lis_precon_iluk.c:840-854 -/
def numElim1 [Mul R] [Sub R] (P : IluPat) (i j jrow k : ℕ) (s : NumSt R) : Option (NumSt R) := do
  let col ← (P.idxU jrow).rd k
  match (← s.jw.rd col) with
  | none => pure s
  | some jpos => do
    let l ← (s.Lv i).rd j
    let u ← (s.Uv jrow).rd k
    numMod i col (some jpos) (fun a => a - l * u) s

/-- elimination of one column of `L`. src/precon/lis_precon_iluk.c:835-855 -/
def numElim [Mul R] [Sub R] (P : IluPat) (i j : ℕ) (s : NumSt R) : Option (NumSt R) := do
  let jrow ← (P.idxL i).rd j
  let d ← s.D.rd jrow
  let v ← rowMod s.Lv i j fun a => a * d
  let m ← P.nnzU.rd jrow
  loop 0 m { s with Lv := v } fun k s => numElim1 P i j jrow k s

/-- row `i`. src/precon/lis_precon_iluk.c:794-870 -/
def numRow [Zero R] [One R] [Mul R] [Sub R] [Div R] (A : Csr R) (P : IluPat) (i : ℕ) (s : NumSt R) :
    Option (NumSt R) := do
  let s ← numInit P i s
  let s ← numScatter A i s
  let ml ← P.nnzL.rd i
  let s ← loop 0 ml s fun j s => numElim P i j s
  let jw ← numUnmark ml (P.idxL i) s.jw
  let jw ← jw.wr i none
  let mu ← P.nnzU.rd i
  let jw ← numUnmark mu (P.idxU i) jw
  let d ← s.D.rd i
  let D ← s.D.wr i (1 / d)
  pure { s with D := D, jw := jw }

/-- `lis_numerical_fact_csr`; the value rows were allocated by `lis_symbolic_fact_csr` with the sizes of the index rows.
src/precon/lis_precon_iluk.c:764-875 -/
def numericalFactCsr [Zero R] [One R] [Mul R] [Sub R] [Div R] (A : Csr R) (P : IluPat) (junk : ℕ → ℕ → R)
    (junkD : Arr R) (junkJw : ℕ → Option ℕ) : Option (IluFact R) := do
  let jw ← loop 0 A.n (Arr.malloc A.n junkJw) fun i jw => jw.wr i none
  let s ← loop 0 A.n (⟨fun i => Arr.malloc (P.idxL i).size (junk i), junkD,
      fun i => Arr.malloc (P.idxU i).size (junk i), jw⟩ : NumSt R) fun i s => numRow A P i s
  pure ⟨⟨P.nnzL, P.idxL, s.Lv⟩, s.D, ⟨P.nnzU, P.idxU, s.Uv⟩⟩

/-- `lis_precon_create_iluk` for a CSR matrix. src/precon/lis_precon_iluk.c:93-101 -/
def createIlukCsr [Zero R] [One R] [Mul R] [Sub R] [Div R] (A : Csr R) (levfill : ℕ) (junk : ℕ → ℕ)
    (junkIw : ℕ → Option ℕ) (junkV : ℕ → ℕ → R) (junkD : Arr R) (junkJw : ℕ → Option ℕ) : Option (IluFact R) := do
  let P ← symbolicFactCsr A levfill junk junkIw
  numericalFactCsr A P junkV junkD junkJw

/-- `x[i] -= value[i][j] * x[index[i][j]]` over row `i`. src/precon/lis_precon_iluk.c:1024-1028, 1032-1036 -/
def iluSubRow [Mul R] [Sub R] (M : IluMat R) (x i : ℕ) (h : Vecs R) : Option (Vecs R) := do
  let m ← M.nnz.rd i
  loop 0 m h fun j h => do
    let jj ← (M.index i).rd j
    let v ← (M.value i).rd j
    let xi ← vrd h x i
    let xj ← vrd h x jj
    vwr h x i (xi - v * xj)

/-- `lis_psolve_iluk_csr`, serial. src/precon/lis_precon_iluk.c:1021-1038 -/
def psolveIluk [Mul R] [Sub R] (n : ℕ) (F : IluFact R) (b x : ℕ) (h : Vecs R) : Option (Vecs R) := do
  let r ← vectorCopy b x h
  let h ← loop 0 n r.2 fun i h => iluSubRow F.L x i h
  loopDown 0 n h fun i h => do
    let h ← iluSubRow F.U x i h
    let d ← F.D.rd i
    let xi ← vrd h x i
    vwr h x i (d * xi)

/-- `x[index[i][j]] -= conj(value[i][j]) * x[i]` over row `i`. src/precon/lis_precon_iluk.c:1227-1231, 1235-1239 -/
def iluScatterH [Mul R] [Sub R] (conj : R → R) (M : IluMat R) (x i : ℕ) (h : Vecs R) : Option (Vecs R) := do
  let m ← M.nnz.rd i
  loop 0 m h fun j h => do
    let jj ← (M.index i).rd j
    let v ← (M.value i).rd j
    let xj ← vrd h x jj
    let xi ← vrd h x i
    vwr h x jj (xj - conj v * xi)

/-- `lis_psolveh_iluk_csr`, serial. src/precon/lis_precon_iluk.c:1223-1240 -/
def psolvehIluk [Mul R] [Sub R] (conj : R → R) (n : ℕ) (F : IluFact R) (b x : ℕ) (h : Vecs R) : Option (Vecs R) := do
  let r ← vectorCopy b x h
  let h ← loop 0 n r.2 fun i h => do
    let d ← F.D.rd i
    let xi ← vrd h x i
    let h ← vwr h x i (conj d * xi)
    iluScatterH conj F.U x i h
  loopDown 0 n h fun i h => iluScatterH conj F.L x i h

end Lis
