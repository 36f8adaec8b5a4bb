import Verif.Model.CsrOps
import Verif.Spec.Formats2

/-!
# Triangular solves with DNS and split ELL matrices (src/matrix/lis_matrix_dns.c:617-737, lis_matrix_ell.c:832-956)

A DNS matrix is not stored in parts: the loops run over the columns of one triangle.
-/

namespace Lis
variable {R : Type} [Zero R] [Add R] [Sub R] [Mul R]

/-! ### DNS -/

/-- `t = b[i]; for(j=lo;j<hi;j++) t -= value[j*n+i]*x[j]; x[i] = t*WD[i]`. src/matrix/lis_matrix_dns.c:635-640, 646-651 -/
def solveRowDns (A : Dns R) (wd : Arr R) (b x lo hi i : ℕ) (h : Vecs R) : Option (Vecs R) := do
  let t ← vrd h b i
  let t ← loop lo hi t fun j t => do
    let v ← A.value.rd (j * A.n + i)
    let xj ← vrd h x j
    pure (t - v * xj)
  let w ← wd.rd i
  vwr h x i (t * w)

/-- `lis_matrix_solve_dns`, `LIS_MATRIX_LOWER`. src/matrix/lis_matrix_dns.c:632-642 -/
def solveLowerDns (A : Dns R) (wd : Arr R) (b x : ℕ) (h : Vecs R) : Option (Vecs R) :=
  loop 0 A.n h fun i h => solveRowDns A wd b x 0 i i h

/-- `lis_matrix_solve_dns`, `LIS_MATRIX_UPPER`. src/matrix/lis_matrix_dns.c:643-653 -/
def solveUpperDns (A : Dns R) (wd : Arr R) (b x : ℕ) (h : Vecs R) : Option (Vecs R) :=
  loopDown 0 A.n h fun i h => solveRowDns A wd b x (i + 1) A.np i h

/-- `lis_matrix_solve_dns`, `LIS_MATRIX_SSOR`: the second sweep stops at column `n`. src/matrix/lis_matrix_dns.c:654-674 -/
def solveSsorDns (A : Dns R) (wd : Arr R) (b x : ℕ) (h : Vecs R) : Option (Vecs R) := do
  let h ← loop 0 A.n h fun i h => solveRowDns A wd b x 0 i i h
  loopDown 0 A.n h fun i h => do
    let t ← loop (i + 1) A.n 0 fun j t => do
      let v ← A.value.rd (j * A.n + i)
      let xj ← vrd h x j
      pure (t + v * xj)
    let xi ← vrd h x i
    let w ← wd.rd i
    vwr h x i (xi - t * w)

/-- `for(j=lo;j<hi;j++) x[j] -= conj(value[j*n+i])*x[i]`. src/matrix/lis_matrix_dns.c:702-705, 712-715 -/
def scatterDnsX (conj : R → R) (A : Dns R) (x lo hi i : ℕ) (h : Vecs R) : Option (Vecs R) :=
  loop lo hi h fun j h => do
    let xj ← vrd h x j
    let v ← A.value.rd (j * A.n + i)
    let t ← vrd h x i
    vwr h x j (xj - conj v * t)

/-- `for(j=lo;j<hi;j++) x[j] -= conj(value[j*n+i])*t`. src/matrix/lis_matrix_dns.c:722-725, 731-734 -/
def scatterDnsT (conj : R → R) (A : Dns R) (x lo hi i : ℕ) (t : R) (h : Vecs R) : Option (Vecs R) :=
  loop lo hi h fun j h => do
    let xj ← vrd h x j
    let v ← A.value.rd (j * A.n + i)
    vwr h x j (xj - conj v * t)

/-- `lis_matrix_solveh_dns`, `LIS_MATRIX_LOWER`. src/matrix/lis_matrix_dns.c:696-707 -/
def solvehLowerDns (conj : R → R) (A : Dns R) (wd : Arr R) (b x : ℕ) (h : Vecs R) : Option (Vecs R) := do
  let (_, h) ← vectorCopy b x h
  loop 0 A.n h fun i h => do
    let xi ← vrd h x i
    let w ← wd.rd i
    let h ← vwr h x i (xi * conj w)
    scatterDnsX conj A x (i + 1) A.np i h

/-- `lis_matrix_solveh_dns`, `LIS_MATRIX_UPPER`. src/matrix/lis_matrix_dns.c:708-717 -/
def solvehUpperDns (conj : R → R) (A : Dns R) (wd : Arr R) (b x : ℕ) (h : Vecs R) : Option (Vecs R) := do
  let (_, h) ← vectorCopy b x h
  loopDown 0 A.n h fun i h => do
    let xi ← vrd h x i
    let w ← wd.rd i
    let h ← vwr h x i (xi * conj w)
    scatterDnsX conj A x 0 i i h

/-- `lis_matrix_solveh_dns`, `LIS_MATRIX_SSOR`. src/matrix/lis_matrix_dns.c:718-736 -/
def solvehSsorDns (conj : R → R) (A : Dns R) (wd : Arr R) (b x : ℕ) (h : Vecs R) : Option (Vecs R) := do
  let (_, h) ← vectorCopy b x h
  let h ← loop 0 A.n h fun i h => do
    let xi ← vrd h x i
    let w ← wd.rd i
    scatterDnsT conj A x (i + 1) A.np i (xi * conj w) h
  loopDown 0 A.n h fun i h => do
    let xi ← vrd h x i
    let w ← wd.rd i
    let h ← vwr h x i (xi * conj w)
    scatterDnsT conj A x 0 i i (xi * conj w) h

/-! ### ELL: `n` is the order of the whole matrix -/

/-- one row of the forward or backward substitution. src/matrix/lis_matrix_ell.c:849-854, 860-865 -/
def solveRowEll (n : ℕ) (A : Ell R) (wd : Arr R) (b x i : ℕ) (h : Vecs R) : Option (Vecs R) := do
  let t ← vrd h b i
  let t ← loop 0 A.maxnzr t fun j t => do
    let v ← A.value.rd (j * n + i)
    let c ← A.index.rd (j * n + i)
    let xc ← vrd h x c
    pure (t - v * xc)
  let w ← wd.rd i
  vwr h x i (t * w)

/-- `lis_matrix_solve_ell`, `LIS_MATRIX_LOWER`. src/matrix/lis_matrix_ell.c:846-856 -/
def solveLowerEll (A : SplitEll R) (wd : Arr R) (b x : ℕ) (h : Vecs R) : Option (Vecs R) :=
  loop 0 A.n h fun i h => solveRowEll A.n A.L wd b x i h

/-- `lis_matrix_solve_ell`, `LIS_MATRIX_UPPER`. src/matrix/lis_matrix_ell.c:857-867 -/
def solveUpperEll (A : SplitEll R) (wd : Arr R) (b x : ℕ) (h : Vecs R) : Option (Vecs R) :=
  loopDown 0 A.n h fun i h => solveRowEll A.n A.U wd b x i h

/-- `lis_matrix_solve_ell`, `LIS_MATRIX_SSOR`. src/matrix/lis_matrix_ell.c:868-888 -/
def solveSsorEll (A : SplitEll R) (wd : Arr R) (b x : ℕ) (h : Vecs R) : Option (Vecs R) := do
  let h ← loop 0 A.n h fun i h => solveRowEll A.n A.L wd b x i h
  loopDown 0 A.n h fun i h => do
    let t ← loop 0 A.U.maxnzr 0 fun j t => do
      let c ← A.U.index.rd (j * A.n + i)
      if A.n ≤ c then pure t else do
        let v ← A.U.value.rd (j * A.n + i)
        let xc ← vrd h x c
        pure (t + v * xc)
    let xi ← vrd h x i
    let w ← wd.rd i
    vwr h x i (xi - t * w)

/-- `for(j…) x[index[j*n+i]] -= conj(value[j*n+i])*x[i]`. src/matrix/lis_matrix_ell.c:915-918, 925-928 -/
def scatterEllX (conj : R → R) (n : ℕ) (A : Ell R) (x i : ℕ) (h : Vecs R) : Option (Vecs R) :=
  loop 0 A.maxnzr h fun j h => do
    let c ← A.index.rd (j * n + i)
    let xc ← vrd h x c
    let v ← A.value.rd (j * n + i)
    let t ← vrd h x i
    vwr h x c (xc - conj v * t)

/-- `for(j…) x[index[j*n+i]] -= conj(value[j*n+i])*t`. src/matrix/lis_matrix_ell.c:935-938, 944-947 -/
def scatterEllT (conj : R → R) (n : ℕ) (A : Ell R) (x i : ℕ) (t : R) (h : Vecs R) : Option (Vecs R) :=
  loop 0 A.maxnzr h fun j h => do
    let c ← A.index.rd (j * n + i)
    let xc ← vrd h x c
    let v ← A.value.rd (j * n + i)
    vwr h x c (xc - conj v * t)

/-- `lis_matrix_solveh_ell`, `LIS_MATRIX_LOWER`. src/matrix/lis_matrix_ell.c:909-920 -/
def solvehLowerEll (conj : R → R) (A : SplitEll R) (wd : Arr R) (b x : ℕ) (h : Vecs R) : Option (Vecs R) := do
  let (_, h) ← vectorCopy b x h
  loop 0 A.n h fun i h => do
    let xi ← vrd h x i
    let w ← wd.rd i
    let h ← vwr h x i (xi * conj w)
    scatterEllX conj A.n A.U x i h

/-- `lis_matrix_solveh_ell`, `LIS_MATRIX_UPPER`. src/matrix/lis_matrix_ell.c:921-930 -/
def solvehUpperEll (conj : R → R) (A : SplitEll R) (wd : Arr R) (b x : ℕ) (h : Vecs R) : Option (Vecs R) := do
  let (_, h) ← vectorCopy b x h
  loopDown 0 A.n h fun i h => do
    let xi ← vrd h x i
    let w ← wd.rd i
    let h ← vwr h x i (xi * conj w)
    scatterEllX conj A.n A.L x i h

/-- `lis_matrix_solveh_ell`, `LIS_MATRIX_SSOR`. src/matrix/lis_matrix_ell.c:931-949 -/
def solvehSsorEll (conj : R → R) (A : SplitEll R) (wd : Arr R) (b x : ℕ) (h : Vecs R) : Option (Vecs R) := do
  let (_, h) ← vectorCopy b x h
  let h ← loop 0 A.n h fun i h => do
    let xi ← vrd h x i
    let w ← wd.rd i
    scatterEllT conj A.n A.U x i (xi * conj w) h
  loopDown 0 A.n h fun i h => do
    let xi ← vrd h x i
    let w ← wd.rd i
    let h ← vwr h x i (xi * conj w)
    scatterEllT conj A.n A.L x i (xi * conj w) h

end Lis
