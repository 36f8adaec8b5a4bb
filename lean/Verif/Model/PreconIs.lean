import Verif.Model.CsrOps
import Verif.Model.Precon

/-!
# The I+S preconditioner, src/precon/lis_precon_is.c

`A` is the split matrix, `w` the parameter `-is_alpha`, `m` the option `-is_m` plus one, as the C code computes it
(`m = solver->options[LIS_OPTIONS_M] + 1`).  Serial build: `np = gn = n`, and the tests `#if USE_MPI` are absent.
-/

namespace Lis
variable {R : Type}

/-- `_min(A->U->ptr[i]+m, A->U->ptr[i+1])`. src/precon/lis_precon_is.c:201, 297, 452, 536 -/
def isRowEnd (U : Csr R) (m i : ℕ) : Option ℕ := do
  let a ← U.ptr.rd i
  let b ← U.ptr.rd (i + 1)
  pure (if a + m < b then a + m else b)

/-- `lis_psolve_is`. src/precon/lis_precon_is.c:415-463 -/
def psolveIs [Zero R] [Add R] [Sub R] [Mul R] (U : Csr R) (w : R) (m n : ℕ) (x y : Arr R) : Option (Arr R) :=
  loop 0 n y fun i y => do
    let a ← U.ptr.rd i
    let e ← isRowEnd U m i
    let t ← loop a e (0 : R) fun j t => do
      let jj ← U.index.rd j
      let u ← U.value.rd j
      let v ← x.rd jj
      pure (t + u * v)
    let xi ← x.rd i
    y.wr i (xi - w * t)

/-- `lis_psolveh_is`, serial. src/precon/lis_precon_is.c:465-548 (lines 525-541) -/
def psolvehIs [Sub R] [Mul R] [Star R] (U : Csr R) (w : R) (m n np : ℕ) (x y : Arr R) : Option (Arr R) := do
  let y ← loop 0 np y fun i y => do
    let v ← x.rd i
    y.wr i v
  loop 0 n y fun i y => do
    let t ← x.rd i
    let a ← U.ptr.rd i
    let e ← isRowEnd U m i
    loop a e y fun j y => do
      let jj ← U.index.rd j
      let u ← U.value.rd j
      let v ← y.rd jj
      y.wr jj (v - w * star u * t)

/-! ### `lis_precon_create_is_csr` -/

/-- the variables of the counting pass: `k`, `iw`, `iw2`, `nnzl`, `nnzu`. `iw2 = iw + gn` is the second half of one
block; the model keeps two arrays of `gn` elements. src/precon/lis_precon_is.c:190-200 -/
structure IsCnt where
  k : ℕ
  iw : Arr ℕ
  iw2 : Arr ℕ
  nnzl : ℕ
  nnzu : ℕ

/-- `iw2[k++] = c; iw[c] = k;`. src/precon/lis_precon_is.c:208-209 -/
def isMark (c : ℕ) (s : IsCnt) : Option IsCnt := do
  let iw2 ← s.iw2.wr s.k c
  let iw ← s.iw.wr c (s.k + 1)
  pure { s with k := s.k + 1, iw := iw, iw2 := iw2 }

/-- one column of the `S*A` part: marked and counted unless seen before; `side` is what the C code adds to
`(nnzl, nnzu)`. src/precon/lis_precon_is.c:230-243, 246-251, 255-261 -/
def isSee (c : ℕ) (side : ℕ × ℕ) (s : IsCnt) : Option IsCnt := do
  let jpos ← s.iw.rd c
  if jpos = 0 then do
    let s ← isMark c s
    pure { s with nnzl := s.nnzl + side.1, nnzu := s.nnzu + side.2 }
  else pure s

/-- loop over the columns of row `i` of `B` -/
def rowCols {σ : Type} (B : Csr R) (i : ℕ) (s : σ) (f : ℕ → σ → Option σ) : Option σ := do
  let a ← B.ptr.rd i
  let b ← B.ptr.rd (i + 1)
  loop a b s fun j s => do
    let c ← B.index.rd j
    f c s

/-- loop over the columns and values of row `i` of `B` -/
def rowVals {σ : Type} (B : Csr R) (i : ℕ) (s : σ) (f : ℕ → R → σ → Option σ) : Option σ := do
  let a ← B.ptr.rd i
  let b ← B.ptr.rd (i + 1)
  loop a b s fun j s => do
    let c ← B.index.rd j
    let v ← B.value.rd j
    f c v s

/-- one row of the counting pass: returns `(nnzl, nnzu)` and the work arrays. src/precon/lis_precon_is.c:197-270 -/
def isCountRow (A : SplitCsr R) (m i : ℕ) (iw iw2 : Arr ℕ) : Option ((ℕ × ℕ) × Arr ℕ × Arr ℕ) := do
  let s : IsCnt := ⟨0, iw, iw2, 0, 0⟩
  let s ← rowCols A.L i s fun c s => do
    let s ← isMark c s
    pure { s with nnzl := s.nnzl + 1 }
  let s ← rowCols A.U i s fun c s => do
    let s ← isMark c s
    pure { s with nnzu := s.nnzu + 1 }
  let a ← A.U.ptr.rd i
  let e ← isRowEnd A.U m i
  let s ← loop a e s fun ja s => do
    let jj ← A.U.index.rd ja
    let s ← rowCols A.L jj s fun c s => isSee c (if c < i then (1, 0) else if c > i then (0, 1) else (0, 0)) s
    let s ← isSee jj (0, 1) s
    rowCols A.U jj s fun c s => isSee c (0, 1) s
  let iw ← loop 0 s.k s.iw fun j iw => do
    let c ← s.iw2.rd j
    iw.wr c 0
  pure ((s.nnzl, s.nnzu), iw, s.iw2)

/-- the triple `(position, index, value)` of one triangle and `iw`: `index[k] = c; value[k++] = v; iw[c] = k;`.
src/precon/lis_precon_is.c:306-308, 313-315 -/
def isPush (c : ℕ) (v : R) (t : ℕ × Arr ℕ × Arr R) (iw : Arr ℕ) : Option ((ℕ × Arr ℕ × Arr R) × Arr ℕ) := do
  let ix ← t.2.1.wr t.1 c
  let vl ← t.2.2.wr t.1 v
  let iw ← iw.wr c (t.1 + 1)
  pure ((t.1 + 1, ix, vl), iw)

/-- append or add to the element already there. src/precon/lis_precon_is.c:334-344, 348-358, 365-375, 379-389 -/
def isAdd [Add R] (c : ℕ) (v : R) (t : ℕ × Arr ℕ × Arr R) (iw : Arr ℕ) : Option ((ℕ × Arr ℕ × Arr R) × Arr ℕ) := do
  let jpos ← iw.rd c
  if jpos = 0 then isPush c v t iw
  else do
    let o ← t.2.2.rd (jpos - 1)
    let vl ← t.2.2.wr (jpos - 1) (o + v)
    pure ((t.1, t.2.1, vl), iw)

/-- variables of the filling pass: lower triangle, upper triangle, `diag`, `iw`, `t` -/
structure IsFill (R : Type) where
  lo : ℕ × Arr ℕ × Arr R
  up : ℕ × Arr ℕ × Arr R
  diag : Arr R
  iw : Arr ℕ

def isPushL (c : ℕ) (v : R) (s : IsFill R) : Option (IsFill R) := do
  let r ← isPush c v s.lo s.iw
  pure { s with lo := r.1, iw := r.2 }
def isPushU (c : ℕ) (v : R) (s : IsFill R) : Option (IsFill R) := do
  let r ← isPush c v s.up s.iw
  pure { s with up := r.1, iw := r.2 }
def isAddL [Add R] (c : ℕ) (v : R) (s : IsFill R) : Option (IsFill R) := do
  let r ← isAdd c v s.lo s.iw
  pure { s with lo := r.1, iw := r.2 }
def isAddU [Add R] (c : ℕ) (v : R) (s : IsFill R) : Option (IsFill R) := do
  let r ← isAdd c v s.up s.iw
  pure { s with up := r.1, iw := r.2 }

/-- an element of a lower row `jj`: left of `i`, right of `i`, or on the diagonal. src/precon/lis_precon_is.c:330-363 -/
def isAddLU [Add R] (i c : ℕ) (v : R) (s : IsFill R) : Option (IsFill R) :=
  if c < i then isAddL c v s
  else if c > i then isAddU c v s
  else do
    let o ← s.diag.rd i
    let d ← s.diag.wr i (o + v)
    pure { s with diag := d }

/-- `for(j=base;j<t.k;j++) iw[index[j]] = 0;`. src/precon/lis_precon_is.c:391-398 -/
def isClear (base : ℕ) (t : ℕ × Arr ℕ × Arr R) (iw : Arr ℕ) : Option (Arr ℕ) :=
  loop base t.1 iw fun j iw => do
    let c ← t.2.1.rd j
    iw.wr c 0

/-- the elements of one row: `I*A`, then `S*A`; also returns the new right-hand side value `t`.
src/precon/lis_precon_is.c:295-389 -/
def isFillRow [Add R] [Mul R] [Neg R] (A : SplitCsr R) (w : R) (m : ℕ) (b : Arr R) (i : ℕ) (s : IsFill R) :
    Option (IsFill R × R) := do
  let val ← A.D.rd i
  let bi ← b.rd i
  let s ← rowVals A.L i s fun c v s => isPushL c (val * v) s
  let s ← rowVals A.U i s fun c v s => isPushU c (val * v) s
  let a ← A.U.ptr.rd i
  let e ← isRowEnd A.U m i
  loop a e (s, val * bi) fun ja (p : IsFill R × R) => do
    let jj ← A.U.index.rd ja
    let u ← A.U.value.rd ja
    let val := -w * u
    let bj ← b.rd jj
    let s ← rowVals A.L jj p.1 fun c v s => isAddLU i c (val * v) s
    let d ← A.D.rd jj
    let s ← isAddU jj (val * d) s
    let s ← rowVals A.U jj s fun c v s => isAddU c (val * v) s
    pure (s, p.2 + val * bj)

/-- the two passes and the prefix sums: the split matrix `P` and the right-hand side `pb`.
src/precon/lis_precon_is.c:167-401 -/
def isBuild [Add R] [Mul R] [Neg R] (junk : ℕ → ℕ → ℕ) (vjunk : ℕ → ℕ → R) (A : SplitCsr R) (w : R) (m : ℕ)
    (b : Arr R) : Option (SplitCsr R × Arr R) := do
  let n := A.n
  let (lptr, uptr, _, _) ← loop 0 n ((.malloc (n + 1) (junk 0), .malloc (n + 1) (junk 1),
      .malloc n (fun _ => 0), .malloc n (junk 2)) : Arr ℕ × Arr ℕ × Arr ℕ × Arr ℕ) fun i s => do
    let r ← isCountRow A m i s.2.2.1 s.2.2.2
    let lptr ← s.1.wr (i + 1) r.1.1
    let uptr ← s.2.1.wr (i + 1) r.1.2
    pure (lptr, uptr, r.2.1, r.2.2)
  let lptr ← lptr.wr 0 0
  let uptr ← uptr.wr 0 0
  let (lptr, uptr) ← loop 0 n ((lptr, uptr) : Arr ℕ × Arr ℕ) fun i s => do
    let a ← s.1.rd (i + 1)
    let b ← s.1.rd i
    let lptr ← s.1.wr (i + 1) (a + b)
    let a ← s.2.rd (i + 1)
    let b ← s.2.rd i
    let uptr ← s.2.wr (i + 1) (a + b)
    pure (lptr, uptr)
  let nnzl ← lptr.rd n
  let nnzu ← uptr.rd n
  let diag ← loop 0 n (Arr.malloc n (vjunk 2)) fun i d => do
    let v ← A.D.rd i
    d.wr i v
  let s : IsFill R := ⟨(0, .malloc nnzl (junk 3), .malloc nnzl (vjunk 0)),
    (0, .malloc nnzu (junk 4), .malloc nnzu (vjunk 1)), diag, .malloc n (fun _ => 0)⟩
  let (s, pb) ← loop 0 n ((s, Arr.malloc n (vjunk 3)) : IsFill R × Arr R) fun i p => do
    let kl ← lptr.rd i
    let ku ← uptr.rd i
    let r ← isFillRow A w m b i { p.1 with lo := (kl, p.1.lo.2), up := (ku, p.1.up.2) }
    let iw ← isClear kl r.1.lo r.1.iw
    let iw ← isClear ku r.1.up iw
    let pb ← p.2.wr i r.2
    pure ({ r.1 with iw := iw }, pb)
  pure (⟨n, n, s.diag, ⟨n, n, nnzl, lptr, s.lo.2.1, s.lo.2.2⟩, ⟨n, n, nnzu, uptr, s.up.2.1, s.up.2.2⟩⟩, pb)

/-- `lis_precon_create_is_csr`: `precon->A` and `precon->Pb`. `b` is `solver->b` at the time of the call, `none` being
NULL: `lis_vector_duplicate(b,&pb)` dereferences it. src/precon/lis_precon_is.c:149-413,
src/vector/lis_vector.c:361-410 -/
def createIsCsr [Add R] [Mul R] [Neg R] (junk junk' : ℕ → ℕ → ℕ) (vjunk : ℕ → ℕ → R) (vjunk' : ℕ → R) (A : SplitCsr R)
    (w : R) (m : ℕ) (b : Option (Arr R)) : Option (Csr R × Arr R) := do
  let b ← b
  let (P, pb) ← isBuild junk vjunk A w m b
  let C ← mergeCsr junk' vjunk' P
  pure (C, pb)

end Lis
