import Verif.Spec.Formats2
import Verif.Model.Matvec1

/-!
# Models of the matvec kernels (part 2): ELL, DIA, JAD (serial, one thread)
-/

namespace Lis
variable {R : Type}

/-- `for(i=0;i<n;i++) y[i] = c(D[i])*x[i]` (src/matvec/lis_matvec_ell.c:62-65, :153-156) -/
def diagInit [Mul R] (c : R → R) (n : ℕ) (D x y : Arr R) : Option (Arr R) :=
  loop 0 n y fun i y => do
    let d ← D.rd i
    let xi ← x.rd i
    y.wr i (c d * xi)

section kernels
variable [Add R] [Mul R] [Zero R]

/-- accumulation loops of `lis_matvec_ell`. src/matvec/lis_matvec_ell.c:66-77 (L), :78-89 (U),
:117-128 (unsplit, `is=0`, `ie=n`) -/
def ellAcc (A : Ell R) (x y : Arr R) : Option (Arr R) :=
  loop 0 A.maxnzr y fun j y =>
    loop 0 A.n y fun i y => do
      let v ← A.value.rd (j * A.n + i)
      let jj ← A.index.rd (j * A.n + i)
      let xj ← x.rd jj
      let yi ← y.rd i
      y.wr i (yi + v * xj)

/-- `lis_matvec_ell`, unsplit. src/matvec/lis_matvec_ell.c:91-129 -/
def matvecEll (A : Ell R) (x y : Arr R) : Option (Arr R) := do
  let y ← zeroFill A.n y
  ellAcc A x y

/-- `lis_matvec_ell`, split. src/matvec/lis_matvec_ell.c:56-90 -/
def matvecSplitEll (A : SplitEll R) (x y : Arr R) : Option (Arr R) := do
  let y ← diagInit id A.n A.D x y
  let y ← ellAcc A.L x y
  ellAcc A.U x y

/-- scatter loops of `lis_matvech_ell`. src/matvec/lis_matvec_ell.c:157-180, :233-244 -/
def ellAccH [Star R] (A : Ell R) (x y : Arr R) : Option (Arr R) :=
  loop 0 A.maxnzr y fun j y =>
    loop 0 A.n y fun i y => do
      let jj ← A.index.rd (j * A.n + i)
      let v ← A.value.rd (j * A.n + i)
      let xi ← x.rd i
      let yj ← y.rd jj
      y.wr jj (yj + star v * xi)

/-- `lis_matvech_ell`, unsplit, serial. src/matvec/lis_matvec_ell.c:223-246 -/
def matvechEll [Star R] (A : Ell R) (x y : Arr R) : Option (Arr R) := do
  let y ← zeroFill A.n y
  ellAccH A x y

/-- `lis_matvech_ell`, split. src/matvec/lis_matvec_ell.c:146-181 -/
def matvechSplitEll [Star R] (A : SplitEll R) (x y : Arr R) : Option (Arr R) := do
  let y ← diagInit star A.n A.D x y
  let y ← ellAccH A.L x y
  ellAccH A.U x y

/-- accumulation loops of `lis_matvec_dia` for one thread (`is=0, ie=n`):
`jj=index[j]; js=max(0,-jj); je=min(n,n-jj); for(i=js;i<je;i++) y[i] += value[j*n+i]*x[jj+i]`
(`ii` runs in step with `i`, so `k+ii = j*n+i`).  src/matvec/lis_matvec_dia.c:83-103 (L),
:104-124 (U), :158-178 (unsplit); the `#ifdef USE_MPI` bounds are not modelled. -/
def diaAcc (A : Dia R) (x y : Arr R) : Option (Arr R) :=
  loop 0 A.nnd y fun j y => do
    let jj ← A.index.rd j
    let js := (max 0 (-jj)).toNat
    let je := (min (A.n : ℤ) (A.n - jj)).toNat
    loop js je y fun i y => do
      let v ← A.value.rd (j * A.n + i)
      let xj ← x.rdI (jj + i)
      let yi ← y.rd i
      y.wr i (yi + v * xj)

/-- `lis_matvec_dia`, unsplit. src/matvec/lis_matvec_dia.c:127-180 -/
def matvecDia (A : Dia R) (x y : Arr R) : Option (Arr R) := do
  let y ← zeroFill A.n y
  diaAcc A x y

/-- `lis_matvec_dia`, split. src/matvec/lis_matvec_dia.c:56-126 -/
def matvecSplitDia (A : SplitDia R) (x y : Arr R) : Option (Arr R) := do
  let y ← diagInit id A.n A.D x y
  let y ← diaAcc A.L x y
  diaAcc A.U x y

/-- scatter loops of `lis_matvech_dia`: `y[jj+i] += conj(value[j*n+i])*x[i]`.
src/matvec/lis_matvec_dia.c:217-238, :247-267, :325-348 -/
def diaAccH [Star R] (A : Dia R) (x y : Arr R) : Option (Arr R) :=
  loop 0 A.nnd y fun j y => do
    let jj ← A.index.rd j
    let js := (max 0 (-jj)).toNat
    let je := (min (A.n : ℤ) (A.n - jj)).toNat
    loop js je y fun i y => do
      let v ← A.value.rd (j * A.n + i)
      let xi ← x.rd i
      let yj ← y.rdI (jj + i)
      y.wrI (jj + i) (yj + star v * xi)

/-- `lis_matvech_dia`, unsplit, serial (`np = n`). src/matvec/lis_matvec_dia.c:317-350 -/
def matvechDia [Star R] (A : Dia R) (x y : Arr R) : Option (Arr R) := do
  let y ← zeroFill A.n y
  diaAccH A x y

/-- `lis_matvech_dia`, split: zero, L, then `y[i] += conj(D[i])*x[i]`, then U.
src/matvec/lis_matvec_dia.c:190-269 -/
def matvechSplitDia [Star R] (A : SplitDia R) (x y : Arr R) : Option (Arr R) := do
  let y ← zeroFill A.n y
  let y ← diaAccH A.L x y
  let y ← loop 0 A.n y fun i y => do
    let d ← A.D.rd i
    let xi ← x.rd i
    let yi ← y.rd i
    y.wr i (yi + star d * xi)
  diaAccH A.U x y

/-- accumulation of the jagged diagonals into the work vector:
`k=0; for(i=js;i<je;i++) { w[k] += value[i]*x[index[i]]; k++; }`
src/matvec/lis_matvec_jad.c:89-103 (L), :120-134 (U), :174-188 (unsplit); one thread, so `is=0` and
`k = i-js`. -/
def jadAcc (A : Jad R) (x w : Arr R) : Option (Arr R) :=
  loop 0 A.maxnzr w fun j w => do
    let js ← A.ptr.rd j
    let je ← A.ptr.rd (j + 1)
    loop js je w fun i w => do
      let v ← A.value.rd i
      let jj ← A.index.rd i
      let xj ← x.rd jj
      let wk ← w.rd (i - js)
      w.wr (i - js) (wk + v * xj)

/-- `lis_matvec_jad`, unsplit (`#ifndef USE_OVERLAP`). src/matvec/lis_matvec_jad.c:146-197.
`w` is `A->work`. -/
def matvecJad (A : Jad R) (w x y : Arr R) : Option (Arr R) := do
  let w ← zeroFill A.n w
  let w ← jadAcc A x w
  loop 0 A.n y fun i y => do
    let r ← A.row.rd i
    let wi ← w.rd i
    y.wr r wi

/-- `for(i=is;i<ie;i++) y[row[i]] += w[i]`. src/matvec/lis_matvec_jad.c:108-111, :139-142 -/
def jadAddRows (A : Jad R) (w y : Arr R) : Option (Arr R) :=
  loop 0 A.n y fun i y => do
    let r ← A.row.rd i
    let wi ← w.rd i
    let yr ← y.rd r
    y.wr r (yr + wi)

/-- `lis_matvec_jad`, split. src/matvec/lis_matvec_jad.c:60-144.  (The C loop at 84-88 sets
`y[i] = D[i]*x[i]` and `w[i] = 0` together; they are distinct blocks, so it is modelled as two
loops.) -/
def matvecSplitJad (A : SplitJad R) (w x y : Arr R) : Option (Arr R) := do
  let y ← diagInit id A.n A.D x y
  let w ← zeroFill A.n w
  let w ← jadAcc A.L x w
  let y ← jadAddRows A.L w y
  let w ← zeroFill A.n w
  let w ← jadAcc A.U x w
  jadAddRows A.U w y

/-- scatter loops of `lis_matvech_jad`: `y[index[j]] += conj(value[j])*x[row[k]]`, `k = j-js`.
src/matvec/lis_matvec_jad.c:508-523, :524-539, :591-606 -/
def jadAccH [Star R] (A : Jad R) (x y : Arr R) : Option (Arr R) :=
  loop 0 A.maxnzr y fun i y => do
    let js ← A.ptr.rd i
    let je ← A.ptr.rd (i + 1)
    loop js je y fun j y => do
      let jj ← A.index.rd j
      let v ← A.value.rd j
      let r ← A.row.rd (j - js)
      let xr ← x.rd r
      let yj ← y.rd jj
      y.wr jj (yj + star v * xr)

/-- `lis_matvech_jad`, unsplit, serial. src/matvec/lis_matvec_jad.c:583-608 -/
def matvechJad [Star R] (A : Jad R) (x y : Arr R) : Option (Arr R) := do
  let y ← zeroFill A.np y
  jadAccH A x y

/-- `lis_matvech_jad`, split. src/matvec/lis_matvec_jad.c:499-540 -/
def matvechSplitJad [Star R] (A : SplitJad R) (x y : Arr R) : Option (Arr R) := do
  let y ← diagInit star A.n A.D x y
  let y ← jadAccH A.L x y
  jadAccH A.U x y

end kernels
end Lis
