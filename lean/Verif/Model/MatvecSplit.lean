import Verif.Spec.Formats4
import Verif.Model.Matvec1
import Verif.Model.Matvec3
import Verif.Model.Array

/-! Split MSR and the conjugate product of split VBR (serial). -/

namespace Lis
variable {R : Type}

section kernels
variable [Add R] [Mul R]

/-- `lis_matvec_msr`, split branch. src/matvec/lis_matvec_msr.c:57-81 -/
def matvecSplitMsr (A : SplitMsr R) (x y : Arr R) : Option (Arr R) :=
  loop 0 A.n y fun i y => do
    let d ← A.D.rd i
    let xi ← x.rd i
    let js ← A.L.index.rd i
    let je ← A.L.index.rd (i + 1)
    let t ← accRow A.L.index A.L.value x js je (d * xi)
    let js ← A.U.index.rd i
    let je ← A.U.index.rd (i + 1)
    let t ← accRow A.U.index A.U.value x js je t
    y.wr i t

/-- `lis_matvech_msr`, split branch. src/matvec/lis_matvec_msr.c:116-138 -/
def matvechSplitMsr [Star R] (A : SplitMsr R) (x y : Arr R) : Option (Arr R) := do
  let y ← loop 0 A.n y fun i y => do
    let d ← A.D.rd i
    let xi ← x.rd i
    y.wr i (star d * xi)
  loop 0 A.n y fun i y => do
    let t ← x.rd i
    let js ← A.L.index.rd i
    let je ← A.L.index.rd (i + 1)
    let y ← scatterCol star A.L.index A.L.value t js je y
    let js ← A.U.index.rd i
    let je ← A.U.index.rd (i + 1)
    scatterCol star A.U.index A.U.value t js je y

end kernels

/-- the array that starts at element `k` of `a` (C: `&a[k]`) -/
def Arr.tail {α : Type} (a : Arr α) (k : ℕ) : Arr α := ⟨a.size - k, fun i => a.get (k + i)⟩

/-- `a` after its elements from `k` on were changed to `b` through the pointer `&a[k]` -/
def Arr.putTail {α : Type} (a : Arr α) (k : ℕ) (b : Arr α) : Arr α :=
  ⟨a.size, fun i => if i < k then a.get i else b.get (i - k)⟩

/-- the blocks of block row `bi`, conjugated and transposed. src/matvec/lis_matvec_vbr.c:244-257 (L), :258-270 (U) -/
def vbrRowAccH [Add R] [Mul R] [Star R] (A : Vbr R) (bi : ℕ) (x y : Arr R) : Option (Arr R) := do
  let bs ← A.bptr.rd bi
  let be ← A.bptr.rd (bi + 1)
  loop bs be y fun bc y => do
    let bj ← A.bindex.rd bc
    let k ← A.ptr.rd bc
    let js ← A.col.rd bj
    let je ← A.col.rd (bj + 1)
    let is ← A.row.rd bi
    let ie ← A.row.rd (bi + 1)
    vbrBlockAccH A.value k js je is ie x y

/-- `lis_matvech_vbr`, split, serial: the diagonal blocks are applied with `lis_array_matvec`, that is neither
transposed nor conjugated. src/matvec/lis_matvec_vbr.c:235-272 -/
def matvechSplitVbr [NonUnitalNonAssocRing R] [Star R] (A : SplitVbr R) (x y : Arr R) : Option (Arr R) := do
  let y ← loop 0 A.nr y fun bi y => do
    let k' ← A.L.row.rd (bi + 1)
    let k ← A.L.row.rd bi
    let d ← A.D.rd bi
    let z ← arrayMatvec .ins (k' - k) d (x.tail k) (y.tail k)
    pure (y.putTail k z)
  loop 0 A.nr y fun bi y => do
    let y ← vbrRowAccH A.L bi x y
    vbrRowAccH A.U bi x y

end Lis
