import Verif.Model.DiagBlock
import Verif.Model.Vector

/-!
# Triangular solves with a split BSR matrix (src/matrix/lis_matrix_bsr.c:1396-1769)

Block sizes 1, 2 and 3 are unrolled in the C code; the other sizes use a work array `w`.  The three flags share the shape
of a block row: start from `b` or 0 (`ini`), subtract or add (`op`) the stored blocks times `x`, multiply by the block of
`A->WD` and assign to or subtract from (`st`) the block of `x`.
-/

namespace Lis
variable {R : Type}

section
variable [Zero R] [Add R] [Sub R] [Mul R]

/-- `t op= a[p] * x[q]` -/
def opMul (op : R → R → R) (a : Arr R) (p : ℕ) (h : Vecs R) (x q : ℕ) (t : R) : Option R := do
  let v ← a.rd p
  let u ← vrd h x q
  pure (op t (v * u))

/-- the stored blocks of row `i`, `bnr==1`. src/matrix/lis_matrix_bsr.c:1421-1425 -/
def accBsr1 (op : R → R → R) (M : Bsr R) (x i : ℕ) (h : Vecs R) (t : R) : Option R := do
  let lo ← M.bptr.rd i
  let hi ← M.bptr.rd (i + 1)
  loop lo hi t fun j t => do
    let jj ← M.bindex.rd j
    opMul op M.value j h x jj t

/-- `bnr==2`. src/matrix/lis_matrix_bsr.c:1434-1441 -/
def accBsr2 (op : R → R → R) (M : Bsr R) (x i : ℕ) (h : Vecs R) (t : R × R) : Option (R × R) := do
  let lo ← M.bptr.rd i
  let hi ← M.bptr.rd (i + 1)
  loop lo hi t fun j t => do
    let jj ← M.bindex.rd j
    let t0 ← opMul op M.value (j * 4 + 0) h x (jj * 2 + 0) t.1
    let t1 ← opMul op M.value (j * 4 + 1) h x (jj * 2 + 0) t.2
    let t0 ← opMul op M.value (j * 4 + 2) h x (jj * 2 + 1) t0
    let t1 ← opMul op M.value (j * 4 + 3) h x (jj * 2 + 1) t1
    pure (t0, t1)

/-- `bnr==3`. src/matrix/lis_matrix_bsr.c:1452-1464 -/
def accBsr3 (op : R → R → R) (M : Bsr R) (x i : ℕ) (h : Vecs R) (t : R × R × R) : Option (R × R × R) := do
  let lo ← M.bptr.rd i
  let hi ← M.bptr.rd (i + 1)
  loop lo hi t fun j t => do
    let jj ← M.bindex.rd j
    let t0 ← opMul op M.value (j * 9 + 0) h x (jj * 3 + 0) t.1
    let t1 ← opMul op M.value (j * 9 + 1) h x (jj * 3 + 0) t.2.1
    let t2 ← opMul op M.value (j * 9 + 2) h x (jj * 3 + 0) t.2.2
    let t0 ← opMul op M.value (j * 9 + 3) h x (jj * 3 + 1) t0
    let t1 ← opMul op M.value (j * 9 + 4) h x (jj * 3 + 1) t1
    let t2 ← opMul op M.value (j * 9 + 5) h x (jj * 3 + 1) t2
    let t0 ← opMul op M.value (j * 9 + 6) h x (jj * 3 + 2) t0
    let t1 ← opMul op M.value (j * 9 + 7) h x (jj * 3 + 2) t1
    let t2 ← opMul op M.value (j * 9 + 8) h x (jj * 3 + 2) t2
    pure (t0, t1, t2)

/-- other block sizes: the work array `w`. src/matrix/lis_matrix_bsr.c:1480-1492 -/
def accBsrN (op : R → R → R) (M : Bsr R) (x i : ℕ) (h : Vecs R) (w : Arr R) : Option (Arr R) := do
  let lo ← M.bptr.rd i
  let hi ← M.bptr.rd (i + 1)
  loop lo hi w fun j w => do
    let jb ← M.bindex.rd j
    loop 0 M.bnr w fun ii w => do
      let t ← w.rd ii
      let t ← loop 0 M.bnc t fun jj t => opMul op M.value (j * (M.bnr * M.bnc) + jj * M.bnr + ii) h x (jb * M.bnc + jj) t
      w.wr ii t

/-- `x[p] = t` or `x[p] -= t`, as `st` says -/
def stVec (st : R → R → R) (x p : ℕ) (t : R) (h : Vecs R) : Option (Vecs R) := do
  let o ← vrd h x p
  vwr h x p (st o t)

/-- block row `i`; `ini r` is the start value of element `r`.  In the C code `w` is allocated once and reused by all rows;
here every row gets a block with arbitrary contents `junk`.  src/matrix/lis_matrix_bsr.c:1416-1506 -/
def solveRowBsr (op st : R → R → R) (ini : ℕ → Option R) (junk : ℕ → R) (M : Bsr R) (wd : Arr R) (x i : ℕ) (h : Vecs R) :
    Option (Vecs R) :=
  match M.bnr with
  | 1 => do
    let t0 ← ini 0
    let t0 ← accBsr1 op M x i h t0
    let d ← wd.rd i
    stVec st x i (d * t0) h
  | 2 => do
    let t0 ← ini 0
    let t1 ← ini 1
    let t ← accBsr2 op M x i h (t0, t1)
    let a ← wd.rd (4 * i + 0)
    let b ← wd.rd (4 * i + 2)
    let h ← stVec st x (i * 2 + 0) (a * t.1 + b * t.2) h
    let a ← wd.rd (4 * i + 1)
    let b ← wd.rd (4 * i + 3)
    stVec st x (i * 2 + 1) (a * t.1 + b * t.2) h
  | 3 => do
    let t0 ← ini 0
    let t1 ← ini 1
    let t2 ← ini 2
    let t ← accBsr3 op M x i h (t0, t1, t2)
    let a ← wd.rd (9 * i + 0)
    let b ← wd.rd (9 * i + 3)
    let c ← wd.rd (9 * i + 6)
    let h ← stVec st x (i * 3 + 0) (a * t.1 + b * t.2.1 + c * t.2.2) h
    let a ← wd.rd (9 * i + 1)
    let b ← wd.rd (9 * i + 4)
    let c ← wd.rd (9 * i + 7)
    let h ← stVec st x (i * 3 + 1) (a * t.1 + b * t.2.1 + c * t.2.2) h
    let a ← wd.rd (9 * i + 2)
    let b ← wd.rd (9 * i + 5)
    let c ← wd.rd (9 * i + 8)
    stVec st x (i * 3 + 2) (a * t.1 + b * t.2.1 + c * t.2.2) h
  | bnr => do
    let w ← loop 0 bnr (Arr.malloc bnr junk) fun j w => do
      let v ← ini j
      w.wr j v
    let w ← accBsrN op M x i h w
    loop 0 bnr h fun ii h => do
      let t ← loop 0 M.bnc 0 fun jj t => do
        let v ← wd.rd (i * (bnr * M.bnc) + jj * bnr + ii)
        let u ← w.rd jj
        pure (t + v * u)
      stVec st x (i * bnr + ii) t h

/-- `lis_matrix_solve_bsr`, `LIS_MATRIX_LOWER`. src/matrix/lis_matrix_bsr.c:1416-1506 -/
def solveLowerBsr (junk : ℕ → R) (A : SplitBsr R) (wd : Arr R) (b x : ℕ) (h : Vecs R) : Option (Vecs R) :=
  loop 0 A.nr h fun i h =>
    solveRowBsr (· - ·) (fun _ t => t) (fun r => vrd h b (i * A.b + r)) junk A.L wd x i h

/-- `lis_matrix_solve_bsr`, `LIS_MATRIX_UPPER`. src/matrix/lis_matrix_bsr.c:1507-1597 -/
def solveUpperBsr (junk : ℕ → R) (A : SplitBsr R) (wd : Arr R) (b x : ℕ) (h : Vecs R) : Option (Vecs R) :=
  loopDown 0 A.nr h fun i h =>
    solveRowBsr (· - ·) (fun _ t => t) (fun r => vrd h b (i * A.b + r)) junk A.U wd x i h

/-- `lis_matrix_solve_bsr`, `LIS_MATRIX_SSOR`. src/matrix/lis_matrix_bsr.c:1598-1765 -/
def solveSsorBsr (junk : ℕ → R) (A : SplitBsr R) (wd : Arr R) (b x : ℕ) (h : Vecs R) : Option (Vecs R) := do
  let h ← loop 0 A.nr h fun i h =>
    solveRowBsr (· - ·) (fun _ t => t) (fun r => vrd h b (i * A.b + r)) junk A.L wd x i h
  loopDown 0 A.nr h fun i h => solveRowBsr (· + ·) (· - ·) (fun _ => some 0) junk A.U wd x i h

/-- `lis_matrix_diag_scale`, constant block size: sizes 1 to 4 are unrolled, one statement per element, the others loop;
the effect on element `p` is the same statement.  src/matrix/lis_matrix_diag.c:661-742 -/
def diagScaleBlk (a : R) (bn nr : ℕ) (d : Arr R) : Option (Arr R) :=
  loop 0 nr d fun i d => loop 0 (bn * bn) d fun j d => do
    let v ← d.rd (i * (bn * bn) + j)
    d.wr (i * (bn * bn) + j) (a * v)

end

section
variable [Zero R] [One R] [Add R] [Sub R] [Mul R] [Div R]

/-- `lis_precon_create_ssor` (`w = ssor_omega`) on a matrix in BSR format and then `lis_psolve_ssor`: split, copy the block
diagonal, scale, invert, solve.  src/precon/lis_precon_ssor.c:58-114 -/
def ssorBsr (junk : ℕ → ℕ → ℕ) (vjunk : ℕ → ℕ → R) (djunk wjunk sjunk : ℕ → R) (gjunk : ℕ → ℕ → R) (w : R) (A : Bsr R)
    (b x : ℕ) (h : Vecs R) : Option (Vecs R) := do
  let S ← splitBsr junk vjunk djunk A
  let wd ← diagCopy S.b S.nr S.D (.malloc (S.b * S.b * S.nr) wjunk)
  let wd ← diagScaleBlk w S.b S.nr wd
  let wd ← diagInverse gjunk S.n S.b S.nr wd
  solveSsorBsr sjunk S wd b x h

end

end Lis
