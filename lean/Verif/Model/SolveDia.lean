import Verif.Model.CsrOps
import Verif.Spec.Formats2

/-!
# Triangular solves with split DIA matrices (src/matrix/lis_matrix_dia.c:1066-1192)

`n` is the order of the whole matrix. The guard of the loops over `L` is `i+index[j] >= 0`, that of the loops over `U`
is `i+index[j] < n` (`up`).
-/

namespace Lis
variable {R : Type} [Zero R] [Add R] [Sub R] [Mul R]

/-- `x[p]` with a signed subscript -/
def vrdI (h : Vecs R) (x : ℕ) (p : ℤ) : Option R := if 0 ≤ p then vrd h x p.toNat else none

/-- `x[p] = a` with a signed subscript -/
def vwrI (h : Vecs R) (x : ℕ) (p : ℤ) (a : R) : Option (Vecs R) := if 0 ≤ p then vwr h x p.toNat a else none

/-- the `if` of the loops -/
def diaGuard (up : Bool) (n : ℕ) (p : ℤ) : Bool := if up then decide (p < n) else decide (0 ≤ p)

/-- one row of the forward (`up = false`) or backward substitution. src/matrix/lis_matrix_dia.c:1083-1088, 1094-1099 -/
def solveRowDia (up : Bool) (n : ℕ) (A : Dia R) (wd : Arr R) (b x i : ℕ) (h : Vecs R) : Option (Vecs R) := do
  let t ← vrd h b i
  let t ← loop 0 A.nnd t fun j t => do
    let o ← A.index.rd j
    if diaGuard up n (i + o) then do
      let v ← A.value.rd (j * n + i)
      let xc ← vrdI h x (i + o)
      pure (t - v * xc)
    else pure t
  let w ← wd.rd i
  vwr h x i (t * w)

/-- `lis_matrix_solve_dia`, `LIS_MATRIX_LOWER`. src/matrix/lis_matrix_dia.c:1080-1090 -/
def solveLowerDia (A : SplitDia R) (wd : Arr R) (b x : ℕ) (h : Vecs R) : Option (Vecs R) :=
  loop 0 A.n h fun i h => solveRowDia false A.n A.L wd b x i h

/-- `lis_matrix_solve_dia`, `LIS_MATRIX_UPPER`. src/matrix/lis_matrix_dia.c:1091-1101 -/
def solveUpperDia (A : SplitDia R) (wd : Arr R) (b x : ℕ) (h : Vecs R) : Option (Vecs R) :=
  loopDown 0 A.n h fun i h => solveRowDia true A.n A.U wd b x i h

/-- `lis_matrix_solve_dia`, `LIS_MATRIX_SSOR`. src/matrix/lis_matrix_dia.c:1102-1121 -/
def solveSsorDia (A : SplitDia R) (wd : Arr R) (b x : ℕ) (h : Vecs R) : Option (Vecs R) := do
  let h ← loop 0 A.n h fun i h => solveRowDia false A.n A.L wd b x i h
  loopDown 0 A.n h fun i h => do
    let t ← loop 0 A.U.nnd 0 fun j t => do
      let o ← A.U.index.rd j
      if diaGuard true A.n (i + o) then do
        let v ← A.U.value.rd (j * A.n + i)
        let xc ← vrdI h x (i + o)
        pure (t + v * xc)
      else pure t
    let xi ← vrd h x i
    let w ← wd.rd i
    vwr h x i (xi - t * w)

/-- `for(j…) if(…) x[i+index[j]] -= conj(value[j*n+i])*x[i]`. src/matrix/lis_matrix_dia.c:1148-1151, 1158-1161 -/
def scatterDiaX (conj : R → R) (up : Bool) (n : ℕ) (A : Dia R) (x i : ℕ) (h : Vecs R) : Option (Vecs R) :=
  loop 0 A.nnd h fun j h => do
    let o ← A.index.rd j
    if diaGuard up n (i + o) then do
      let xc ← vrdI h x (i + o)
      let v ← A.value.rd (j * n + i)
      let t ← vrd h x i
      vwrI h x (i + o) (xc - conj v * t)
    else pure h

/-- `for(j…) if(…) x[i+index[j]] -= conj(value[j*n+i])*t`. src/matrix/lis_matrix_dia.c:1168-1171, 1177-1180 -/
def scatterDiaT (conj : R → R) (up : Bool) (n : ℕ) (A : Dia R) (x i : ℕ) (t : R) (h : Vecs R) : Option (Vecs R) :=
  loop 0 A.nnd h fun j h => do
    let o ← A.index.rd j
    if diaGuard up n (i + o) then do
      let xc ← vrdI h x (i + o)
      let v ← A.value.rd (j * n + i)
      vwrI h x (i + o) (xc - conj v * t)
    else pure h

/-- `lis_matrix_solveh_dia`, `LIS_MATRIX_LOWER`. src/matrix/lis_matrix_dia.c:1142-1153 -/
def solvehLowerDia (conj : R → R) (A : SplitDia R) (wd : Arr R) (b x : ℕ) (h : Vecs R) : Option (Vecs R) := do
  let (_, h) ← vectorCopy b x h
  loop 0 A.n h fun i h => do
    let xi ← vrd h x i
    let w ← wd.rd i
    let h ← vwr h x i (xi * conj w)
    scatterDiaX conj true A.n A.U x i h

/-- `lis_matrix_solveh_dia`, `LIS_MATRIX_UPPER`. src/matrix/lis_matrix_dia.c:1154-1163 -/
def solvehUpperDia (conj : R → R) (A : SplitDia R) (wd : Arr R) (b x : ℕ) (h : Vecs R) : Option (Vecs R) := do
  let (_, h) ← vectorCopy b x h
  loopDown 0 A.n h fun i h => do
    let xi ← vrd h x i
    let w ← wd.rd i
    let h ← vwr h x i (xi * conj w)
    scatterDiaX conj false A.n A.L x i h

/-- `lis_matrix_solveh_dia`, `LIS_MATRIX_SSOR`. src/matrix/lis_matrix_dia.c:1164-1182 -/
def solvehSsorDia (conj : R → R) (A : SplitDia R) (wd : Arr R) (b x : ℕ) (h : Vecs R) : Option (Vecs R) := do
  let (_, h) ← vectorCopy b x h
  let h ← loop 0 A.n h fun i h => do
    let xi ← vrd h x i
    let w ← wd.rd i
    scatterDiaT conj true A.n A.U x i (xi * conj w) h
  loopDown 0 A.n h fun i h => do
    let xi ← vrd h x i
    let w ← wd.rd i
    let h ← vwr h x i (xi * conj w)
    scatterDiaT conj false A.n A.L x i (xi * conj w) h

end Lis
