import Verif.Model.Array
import Verif.Model.Precon
import Verif.Spec.Formats3

/-!
# Block diagonals (src/matrix/lis_matrix_diag.c), splitting of BSR matrices, block Jacobi

A block diagonal `D` with constant block size holds `nr` blocks of `bn × bn` elements, column by column, one after the
other in `D->value`.  With variable block sizes (`D->bns`) every block is an allocation of its own.
-/

namespace Lis
variable {R : Type}

/-- the pointer `&a[o]`: what can be accessed through it ends where `a` ends -/
def Arr.ptrAt (a : Arr R) (o : Nat) : Arr R := ⟨a.size - o, fun p => a.get (o + p)⟩

/-- `a` after a function that got `&a[o]` has left `w` there -/
def Arr.patch (a : Arr R) (o : Nat) (w : Arr R) : Arr R := ⟨a.size, fun p => if p < o then a.get p else w.get (p - o)⟩

/-- `f` called with `&a[o]` as the array it updates -/
def atOff (o : Nat) (f : Arr R → Option (Arr R)) (a : Arr R) : Option (Arr R) := do
  let w ← f (a.ptrAt o)
  pure (a.patch o w)

/-- `memcpy(&y[q],&x[p],m*sizeof(LIS_SCALAR))` -/
def cpy (m : Nat) (x : Arr R) (p q : Nat) (y : Arr R) : Option (Arr R) :=
  loop 0 m y fun i y => do
    let v ← x.rd (p + i)
    y.wr (q + i) v

/-- `lis_matrix_diag_copy`, constant block size (the lengths agree: `Y` is a duplicate of `X`).
src/matrix/lis_matrix_diag.c:592-633 -/
def diagCopy (bn nr : Nat) (x y : Arr R) : Option (Arr R) :=
  loop 0 nr y fun i y => cpy (bn * bn) x (i * (bn * bn)) (i * (bn * bn)) y

section
variable [Zero R] [One R] [Sub R] [Mul R] [Div R]

/-- the diagonal elements of the last block that lie beyond row `n` are set to 1. src/matrix/lis_matrix_diag.c:789-796 -/
def padDiag (n bn nr : Nat) (d : Arr R) : Option (Arr R) :=
  if n % bn ≠ 0 then loopDown (n % bn) bn d fun i d => d.wr (bn * bn * (nr - 1) + i * (bn + 1)) 1 else some d

/-- `lis_matrix_diag_inverse`, constant block size; `n` is `D->n`, `junk i` the block `lu` which `lis_array_ge` allocates
for block `i`.  src/matrix/lis_matrix_diag.c:749-806 -/
def diagInverse (junk : Nat → Nat → R) (n bn nr : Nat) (d : Arr R) : Option (Arr R) :=
  if bn = 1 then recipArr nr d
  else do
    let d ← padDiag n bn nr d
    loop 0 nr d fun i d => atOff (i * (bn * bn)) (arrayGe bn (junk i)) d

end

section
variable [Zero R] [Add R] [Sub R] [Mul R]

/-- `lis_matrix_diag_matvec`, constant block size. src/matrix/lis_matrix_diag.c:809-895 -/
def diagMatvec (bn nr : Nat) (d x y : Arr R) : Option (Arr R) :=
  match bn with
  | 1 => loop 0 nr y fun i y => do
    let a ← x.rd i
    let b ← d.rd i
    y.wr i (a * b)
  | 2 => loop 0 nr y fun i y => do
    let t ← lin2 id d x (4 * i) (4 * i + 2) (2 * i)
    let y ← y.wr (2 * i) t
    let t ← lin2 id d x (4 * i + 1) (4 * i + 3) (2 * i)
    y.wr (2 * i + 1) t
  | 3 => loop 0 nr y fun i y => do
    let t ← lin3 id d x (9 * i) (9 * i + 3) (9 * i + 6) (3 * i)
    let y ← y.wr (3 * i) t
    let t ← lin3 id d x (9 * i + 1) (9 * i + 4) (9 * i + 7) (3 * i)
    let y ← y.wr (3 * i + 1) t
    let t ← lin3 id d x (9 * i + 2) (9 * i + 5) (9 * i + 8) (3 * i)
    y.wr (3 * i + 2) t
  | 4 => loop 0 nr y fun i y => do
    let t ← lin3 id d x (16 * i) (16 * i + 4) (16 * i + 8) (4 * i)
    let u ← mulAt id d x (16 * i + 12) (4 * i + 3)
    let y ← y.wr (4 * i) (t + u)
    let t ← lin3 id d x (16 * i + 1) (16 * i + 5) (16 * i + 9) (4 * i)
    let u ← mulAt id d x (16 * i + 13) (4 * i + 3)
    let y ← y.wr (4 * i + 1) (t + u)
    let t ← lin3 id d x (16 * i + 2) (16 * i + 6) (16 * i + 10) (4 * i)
    let u ← mulAt id d x (16 * i + 14) (4 * i + 3)
    let y ← y.wr (4 * i + 2) (t + u)
    let t ← lin3 id d x (16 * i + 3) (16 * i + 7) (16 * i + 11) (4 * i)
    let u ← mulAt id d x (16 * i + 15) (4 * i + 3)
    y.wr (4 * i + 3) (t + u)
  | bn => loop 0 nr y fun i y =>
    atOff (i * bn) (arrayMatvec .ins bn (d.ptrAt (i * (bn * bn))) (x.ptrAt (i * bn))) y

/-- `lis_matrix_diag_matvech`, constant block size. src/matrix/lis_matrix_diag.c:898-978 -/
def diagMatvech (conj : R → R) (bn nr : Nat) (d x y : Arr R) : Option (Arr R) :=
  loop 0 nr y fun i y =>
    atOff (i * bn) (arrayMatvech conj .ins bn (d.ptrAt (i * (bn * bn))) (x.ptrAt (i * bn))) y

/-- `lis_matrix_diag_matvec` with variable block sizes `bns`; the block of row `i` starts at `x[i*bns[i]]`.
src/matrix/lis_matrix_diag.c:824-834 -/
def diagMatvecVbr (nr : Nat) (bns : Nat → Nat) (v : Nat → Arr R) (x y : Arr R) : Option (Arr R) :=
  loop 0 nr y fun i y => atOff (i * bns i) (arrayMatvec .ins (bns i) (v i) (x.ptrAt (i * bns i))) y

end

/-! ### splitting a BSR matrix -/

/-- next free block, block columns, elements -/
abbrev BlkSt (R : Type) := ℕ × Arr ℕ × Arr R

/-- one block row of the counting pass. src/matrix/lis_matrix_bsr.c:1211-1224 -/
def splitCountBsr (A : Bsr R) : Option (ℕ × ℕ) :=
  loop 0 A.nr (0, 0) fun i s => do
    let a ← A.bptr.rd i
    let b ← A.bptr.rd (i + 1)
    loop a b s fun j s => do
      let c ← A.bindex.rd j
      pure (if c < i then (s.1 + 1, s.2) else if c > i then (s.1, s.2 + 1) else s)

/-- `index[k]=bindex[j]; memcpy(&value[bs*k],&A->value[bs*j],…); k++`. src/matrix/lis_matrix_bsr.c:1294-1296 -/
def pushBlk (bs c : ℕ) (src : Arr R) (j : ℕ) (s : BlkSt R) : Option (BlkSt R) := do
  let ix ← s.2.1.wr s.1 c
  let vl ← cpy bs src (bs * j) (bs * s.1) s.2.2
  pure (s.1 + 1, ix, vl)

/-- one block row of the filling pass. src/matrix/lis_matrix_bsr.c:1288-1308 -/
def splitRowBsr (A : Bsr R) (i : ℕ) (s : BlkSt R × BlkSt R × Arr R) : Option (BlkSt R × BlkSt R × Arr R) := do
  let bs := A.bnr * A.bnc
  let a ← A.bptr.rd i
  let b ← A.bptr.rd (i + 1)
  loop a b s fun j s => do
    let c ← A.bindex.rd j
    if c < i then do
      let l ← pushBlk bs c A.value j s.1
      pure (l, s.2)
    else if c > i then do
      let u ← pushBlk bs c A.value j s.2.1
      pure (s.1, u, s.2.2)
    else do
      let D ← cpy bs A.value (bs * j) (bs * i) s.2.2
      pure (s.1, s.2.1, D)

/-- `lis_matrix_split_bsr`, serial, for square blocks (other blocks: `LIS_ERR_NOT_IMPLEMENTED`, lines 1163-1167).
`D` comes from `lis_matrix_diag_duplicateM` (lis_matrix_diag.c:376-389), which allocates `nr*bnr*bnc` elements and does
not initialise them (`djunk`); `junk`, `vjunk` are the other fresh blocks.  src/matrix/lis_matrix_bsr.c:1131-1335 -/
def splitBsr (junk : ℕ → ℕ → ℕ) (vjunk : ℕ → ℕ → R) (djunk : ℕ → R) (A : Bsr R) : Option (SplitBsr R) := do
  let bs := A.bnr * A.bnc
  let (nnzl, nnzu) ← splitCountBsr A
  let lptr : Arr ℕ := .malloc (A.nr + 1) (junk 0)
  let uptr : Arr ℕ := .malloc (A.nr + 1) (junk 1)
  let l : BlkSt R := (0, .malloc nnzl (junk 2), .malloc (nnzl * bs) (vjunk 0))
  let u : BlkSt R := (0, .malloc nnzu (junk 3), .malloc (nnzu * bs) (vjunk 1))
  let lptr ← lptr.wr 0 0
  let uptr ← uptr.wr 0 0
  let ((lptr, uptr), s) ← loop 0 A.nr ((lptr, uptr), (l, u, Arr.malloc (A.nr * bs) djunk))
    fun i (p : (Arr ℕ × Arr ℕ) × (BlkSt R × BlkSt R × Arr R)) => do
      let s ← splitRowBsr A i p.2
      let lptr ← p.1.1.wr (i + 1) s.1.1
      let uptr ← p.1.2.wr (i + 1) s.2.1.1
      pure ((lptr, uptr), s)
  pure ⟨A.n, A.nr, A.bnr, s.2.2, ⟨A.n, A.nr, A.nc, A.bnr, A.bnc, s.1.1, lptr, s.1.2.1, s.1.2.2⟩,
    ⟨A.n, A.nr, A.nc, A.bnr, A.bnc, s.2.1.1, uptr, s.2.1.2.1, s.2.1.2.2⟩⟩

/-! ### block Jacobi -/

section
variable [Zero R] [One R] [Sub R] [Mul R] [Div R]

/-- `lis_precon_create_bjacobi` for a matrix in BSR format: split, copy the block diagonal, invert the copy; the result
is `precon->WD`.  `wjunk` is the block allocated for it.  src/precon/lis_precon_jacobi.c:220-252 -/
def createBjacobi (junk : ℕ → ℕ → ℕ) (vjunk : ℕ → ℕ → R) (djunk wjunk : ℕ → R) (gjunk : ℕ → ℕ → R) (A : Bsr R) :
    Option (Arr R) := do
  let S ← splitBsr junk vjunk djunk A
  let wd ← diagCopy S.b S.nr S.D (.malloc (S.b * S.b * S.nr) wjunk)
  diagInverse gjunk S.n S.b S.nr wd

end

/-- `lis_psolve_bjacobi`. src/precon/lis_precon_jacobi.c:256-275 -/
def psolveBjacobi [Zero R] [Add R] [Sub R] [Mul R] (bn nr : ℕ) (wd : Arr R) (b x : ℕ) (h : Vecs R) : Option (Vecs R) :=
  onArr (diagMatvec bn nr wd) b x h

/-- `lis_psolveh_bjacobi`. src/precon/lis_precon_jacobi.c:279-298 -/
def psolvehBjacobi [Zero R] [Add R] [Sub R] [Mul R] (conj : R → R) (bn nr : ℕ) (wd : Arr R) (b x : ℕ) (h : Vecs R) :
    Option (Vecs R) :=
  onArr (diagMatvech conj bn nr wd) b x h

end Lis
