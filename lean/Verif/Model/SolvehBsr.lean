import Verif.Model.SolveBsr

/-!
# Conjugate transpose solves with a split BSR matrix (src/matrix/lis_matrix_bsr.c:1771-2120)

A block row first multiplies its block of `x` by the conjugate transpose of its block of `A->WD`, then subtracts the
conjugate transposes of its stored blocks times the result from the other blocks of `x`.  In the complex build `conj` is
missing in some unrolled statements; the parameters `co` (elements of a stored block outside its first row, sizes 2 and
3) and `cw` (`A->WD`, size 1) say what is applied there.
-/

namespace Lis
variable {R : Type}

section
variable [Zero R] [Add R] [Sub R] [Mul R]

/-- the stored elements of row `i`, `bnr==1`; `get` yields the multiplier, which two of the flags read back from `x[i]`.
src/matrix/lis_matrix_bsr.c:1797-1801 -/
def scat1 (c : R → R) (M : Bsr R) (x i : ℕ) (get : Vecs R → Option R) (h : Vecs R) : Option (Vecs R) := do
  let lo ← M.bptr.rd i
  let hi ← M.bptr.rd (i + 1)
  loop lo hi h fun j h => do
    let jj ← M.bindex.rd j
    let v ← M.value.rd j
    let t ← get h
    stVec (· - ·) x jj (c v * t) h

/-- `bnr==2`. src/matrix/lis_matrix_bsr.c:1811-1816 -/
def scat2 (c co : R → R) (M : Bsr R) (x i : ℕ) (t : R × R) (h : Vecs R) : Option (Vecs R) := do
  let lo ← M.bptr.rd i
  let hi ← M.bptr.rd (i + 1)
  loop lo hi h fun j h => do
    let jj ← M.bindex.rd j
    let v0 ← M.value.rd (j * 4 + 0)
    let v1 ← M.value.rd (j * 4 + 1)
    let h ← stVec (· - ·) x (jj * 2 + 0) (c v0 * t.1 + co v1 * t.2) h
    let v0 ← M.value.rd (j * 4 + 2)
    let v1 ← M.value.rd (j * 4 + 3)
    stVec (· - ·) x (jj * 2 + 1) (c v0 * t.1 + co v1 * t.2) h

/-- `bnr==3`. src/matrix/lis_matrix_bsr.c:1828-1834 -/
def scat3 (c co : R → R) (M : Bsr R) (x i : ℕ) (t : R × R × R) (h : Vecs R) : Option (Vecs R) := do
  let lo ← M.bptr.rd i
  let hi ← M.bptr.rd (i + 1)
  loop lo hi h fun j h => do
    let jj ← M.bindex.rd j
    let v0 ← M.value.rd (j * 9 + 0)
    let v1 ← M.value.rd (j * 9 + 1)
    let v2 ← M.value.rd (j * 9 + 2)
    let h ← stVec (· - ·) x (jj * 3 + 0) (c v0 * t.1 + co v1 * t.2.1 + co v2 * t.2.2) h
    let v0 ← M.value.rd (j * 9 + 3)
    let v1 ← M.value.rd (j * 9 + 4)
    let v2 ← M.value.rd (j * 9 + 5)
    let h ← stVec (· - ·) x (jj * 3 + 1) (c v0 * t.1 + co v1 * t.2.1 + co v2 * t.2.2) h
    let v0 ← M.value.rd (j * 9 + 6)
    let v1 ← M.value.rd (j * 9 + 7)
    let v2 ← M.value.rd (j * 9 + 8)
    stVec (· - ·) x (jj * 3 + 2) (c v0 * t.1 + co v1 * t.2.1 + co v2 * t.2.2) h

/-- other block sizes. src/matrix/lis_matrix_bsr.c:1852-1864 -/
def scatN (c : R → R) (M : Bsr R) (x i : ℕ) (w : Arr R) (h : Vecs R) : Option (Vecs R) := do
  let lo ← M.bptr.rd i
  let hi ← M.bptr.rd (i + 1)
  loop lo hi h fun j h => do
    let k ← M.bindex.rd j
    loop 0 M.bnc h fun jj h => do
      let t ← loop 0 M.bnr 0 fun ii t => do
        let v ← M.value.rd (j * (M.bnr * M.bnc) + jj * M.bnr + ii)
        let u ← w.rd ii
        pure (t + c v * u)
      stVec (· - ·) x (k * M.bnc + jj) t h

/-- `c(a[p])*x[q]` -/
def mulVec (c : R → R) (a : Arr R) (p : ℕ) (h : Vecs R) (x q : ℕ) : Option R := do
  let v ← a.rd p
  let u ← vrd h x q
  pure (c v * u)

/-- `c(a[p])*x[q] + c(a[p+1])*x[q+1]` -/
def mulVec2 (c : R → R) (a : Arr R) (p : ℕ) (h : Vecs R) (x q : ℕ) : Option R := do
  let s ← mulVec c a p h x q
  let t ← mulVec c a (p + 1) h x (q + 1)
  pure (s + t)

/-- `c(a[p])*x[q] + c(a[p+1])*x[q+1] + c(a[p+2])*x[q+2]` -/
def mulVec3 (c : R → R) (a : Arr R) (p : ℕ) (h : Vecs R) (x q : ℕ) : Option R := do
  let s ← mulVec2 c a p h x q
  let t ← mulVec c a (p + 2) h x (q + 2)
  pure (s + t)

/-- `x[p] = t` if `store` -/
def putVec (store : Bool) (x p : ℕ) (t : R) (h : Vecs R) : Option (Vecs R) :=
  if store then vwr h x p t else some h

/-- block row `i`; `store`: the block of `x` is overwritten (not in the first sweep of SSOR); `reload`: size 1 reads
`x[i]` again for every stored element.  `w` (allocated once in C) is a block with contents `junk`.
src/matrix/lis_matrix_bsr.c:1790-1868 -/
def solvehRowBsr (c co cw : R → R) (store reload : Bool) (junk : ℕ → R) (M : Bsr R) (wd : Arr R) (x i : ℕ) (h : Vecs R) :
    Option (Vecs R) :=
  match M.bnr with
  | 1 => do
    let u ← vrd h x i
    let v ← wd.rd i
    let h ← putVec store x i (u * cw v) h
    scat1 c M x i (fun h => if reload then vrd h x i else some (u * cw v)) h
  | 2 => do
    let t0 ← mulVec2 c wd (4 * i) h x (i * 2)
    let t1 ← mulVec2 c wd (4 * i + 2) h x (i * 2)
    let h ← putVec store x (i * 2 + 0) t0 h
    let h ← putVec store x (i * 2 + 1) t1 h
    scat2 c co M x i (t0, t1) h
  | 3 => do
    let t0 ← mulVec3 c wd (9 * i) h x (i * 3)
    let t1 ← mulVec3 c wd (9 * i + 3) h x (i * 3)
    let t2 ← mulVec3 c wd (9 * i + 6) h x (i * 3)
    let h ← putVec store x (i * 3 + 0) t0 h
    let h ← putVec store x (i * 3 + 1) t1 h
    let h ← putVec store x (i * 3 + 2) t2 h
    scat3 c co M x i (t0, t1, t2) h
  | bnr => do
    let w ← loop 0 M.bnc (Arr.malloc M.bnc junk) fun jj w => do
      let t ← loop 0 bnr 0 fun ii t => do
        let s ← mulVec c wd (i * (bnr * M.bnc) + jj * bnr + ii) h x (i * bnr + ii)
        pure (t + s)
      w.wr jj t
    let h ← loop 0 bnr h fun r h => do
      let v ← w.rd r
      putVec store x (i * bnr + r) v h
    scatN c M x i w h

/-- `lis_matrix_solveh_bsr`, `LIS_MATRIX_LOWER`: uses `U`; sizes 2 and 3 conjugate only the first element of each row of a
stored block.  src/matrix/lis_matrix_bsr.c:1787-1868 -/
def solvehLowerBsr (conj : R → R) (junk : ℕ → R) (A : SplitBsr R) (wd : Arr R) (b x : ℕ) (h : Vecs R) :
    Option (Vecs R) := do
  let (_, h) ← vectorCopy b x h
  loop 0 A.nr h fun i h => solvehRowBsr conj id conj true true junk A.U wd x i h

/-- `lis_matrix_solveh_bsr`, `LIS_MATRIX_UPPER`: uses `L`; size 1 does not conjugate `A->WD`, size 2 conjugates only the first
element of each row of a stored block, size 3 all.  src/matrix/lis_matrix_bsr.c:1869-1947 -/
def solvehUpperBsr (conj : R → R) (junk : ℕ → R) (A : SplitBsr R) (wd : Arr R) (b x : ℕ) (h : Vecs R) :
    Option (Vecs R) := do
  let (_, h) ← vectorCopy b x h
  loopDown 0 A.nr h fun i h => solvehRowBsr conj (if A.L.bnr = 3 then conj else id) id true true junk A.L wd x i h

/-- `lis_matrix_solveh_bsr`, `LIS_MATRIX_SSOR`. src/matrix/lis_matrix_bsr.c:1948-2091 -/
def solvehSsorBsr (conj : R → R) (junk : ℕ → R) (A : SplitBsr R) (wd : Arr R) (b x : ℕ) (h : Vecs R) :
    Option (Vecs R) := do
  let (_, h) ← vectorCopy b x h
  let h ← loop 0 A.nr h fun i h => solvehRowBsr conj conj conj false false junk A.U wd x i h
  loopDown 0 A.nr h fun i h => solvehRowBsr conj conj conj true false junk A.L wd x i h

end

section
variable [Zero R] [One R] [Add R] [Sub R] [Mul R] [Div R]

/-- `lis_precon_create_ssor` on a matrix in BSR format and then `lis_psolveh_ssor`.
src/precon/lis_precon_ssor.c:58-89, 117-137 -/
def ssorhBsr (conj : R → R) (junk : ℕ → ℕ → ℕ) (vjunk : ℕ → ℕ → R) (djunk wjunk sjunk : ℕ → R) (gjunk : ℕ → ℕ → R) (w : R)
    (A : Bsr R) (b x : ℕ) (h : Vecs R) : Option (Vecs R) := do
  let S ← splitBsr junk vjunk djunk A
  let wd ← diagCopy S.b S.nr S.D (.malloc (S.b * S.b * S.nr) wjunk)
  let wd ← diagScaleBlk w S.b S.nr wd
  let wd ← diagInverse gjunk S.n S.b S.nr wd
  solvehSsorBsr conj sjunk S wd b x h

end

end Lis
