import Verif.Model.SolveBsr
import Verif.Spec.Formats3

/-!
# Split and triangular solves of BSC matrices (src/matrix/lis_matrix_bsc.c:1069-1278, 1341-1712)

`lis_matrix_solve_bsc` is, but for its name, the text of `lis_matrix_solve_bsr`, and `lis_matrix_split_bsc` differs from
`lis_matrix_split_bsr` only in the names `nr`/`nc` and `n`/`np` (equal in a serial build with square blocks): the code of
the BSR functions runs on the BSC arrays, so `bptr` indexes block columns where the BSR code has block rows.
-/

namespace Lis
variable {R : Type}

/-- the arrays of a BSC matrix, as the BSR code reads them -/
def Bsc.rows (A : Bsc R) : Bsr R := ⟨A.n, A.nc, A.nr, A.bnr, A.bnc, A.bnnz, A.bptr, A.bindex, A.value⟩

def Bsr.asBsc (A : Bsr R) : Bsc R := ⟨A.n, A.nc, A.nr, A.bnr, A.bnc, A.bnnz, A.bptr, A.bindex, A.value⟩

def SplitBsc.rows (A : SplitBsc R) : SplitBsr R := ⟨A.n, A.nr, A.b, A.D, A.L.rows, A.U.rows⟩

section
variable [Zero R] [Add R] [Sub R] [Mul R]

/-- `lis_matrix_split_bsc`, serial, square blocks: `bindex[j] < i` (`i` the block column) goes to `L`.
src/matrix/lis_matrix_bsc.c:1069-1278 -/
def splitBsc (junk : ℕ → ℕ → ℕ) (vjunk : ℕ → ℕ → R) (djunk : ℕ → R) (A : Bsc R) : Option (SplitBsc R) := do
  let S ← splitBsr junk vjunk djunk A.rows
  pure ⟨S.n, S.nr, S.b, S.D, S.L.asBsc, S.U.asBsc⟩

/-- `lis_matrix_solve_bsc`, `LIS_MATRIX_LOWER`. src/matrix/lis_matrix_bsc.c:1359-1448 -/
def solveLowerBsc (junk : ℕ → R) (A : SplitBsc R) (wd : Arr R) (b x : ℕ) (h : Vecs R) : Option (Vecs R) :=
  solveLowerBsr junk A.rows wd b x h

/-- `lis_matrix_solve_bsc`, `LIS_MATRIX_UPPER`. src/matrix/lis_matrix_bsc.c:1449-1540 -/
def solveUpperBsc (junk : ℕ → R) (A : SplitBsc R) (wd : Arr R) (b x : ℕ) (h : Vecs R) : Option (Vecs R) :=
  solveUpperBsr junk A.rows wd b x h

/-- `lis_matrix_solve_bsc`, `LIS_MATRIX_SSOR`. src/matrix/lis_matrix_bsc.c:1541-1708 -/
def solveSsorBsc (junk : ℕ → R) (A : SplitBsc R) (wd : Arr R) (b x : ℕ) (h : Vecs R) : Option (Vecs R) :=
  solveSsorBsr junk A.rows wd b x h

end

section
variable [Zero R] [One R] [Add R] [Sub R] [Mul R] [Div R]

/-- `lis_precon_create_ssor` (`w = ssor_omega`) on a matrix in BSC format and then `lis_psolve_ssor`.
src/precon/lis_precon_ssor.c:58-114 -/
def ssorBsc (junk : ℕ → ℕ → ℕ) (vjunk : ℕ → ℕ → R) (djunk wjunk sjunk : ℕ → R) (gjunk : ℕ → ℕ → R) (w : R) (A : Bsc R)
    (b x : ℕ) (h : Vecs R) : Option (Vecs R) := do
  let S ← splitBsc junk vjunk djunk A
  let wd ← diagCopy S.b S.nr S.D (.malloc (S.b * S.b * S.nr) wjunk)
  let wd ← diagScaleBlk w S.b S.nr wd
  let wd ← diagInverse gjunk S.n S.b S.nr wd
  solveSsorBsc sjunk S wd b x h

end

end Lis
