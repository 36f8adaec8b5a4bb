import Verif.Spec.AnyMat
import Verif.Model.Assembly
import Verif.Model.Blocks
import Verif.Model.Convert1
import Verif.Model.Convert2
import Verif.Model.ConvertVbr

/-!
# Model of `lis_matrix_convert` (src/matrix/lis_matrix_ops.c:127-322)

Assembled, unsplit, serial input (so `lis_matrix_merge` does nothing); RCO input is `lis_matrix_assemble`, modelled in
`Model/Assembly`.  The result is the return code, the input matrix after the call (CSR → DIA, CSR → VBR and COO → CSR
sort it in place) and the output.
-/

namespace Lis
variable {R : Type}

/-- unspecified contents of the arrays allocated on the way -/
structure ConvJunk (R : Type) where
  i1 : ℕ → ℕ → ℕ
  i2 : ℕ → ℕ → ℕ
  i3 : ℕ → ℕ → ℕ
  z : ℕ → ℕ → ℤ
  v1 : ℕ → R
  v2 : ℕ → R
  v3 : ℕ → R

/-- what the user stored in `Aout` with `lis_matrix_set_blocksize`: block sizes, and for VBR possibly a partition
`(nr, nc, row, col)` -/
structure ConvArgs where
  bnr : ℕ
  bnc : ℕ
  part : Option (ℕ × ℕ × Arr ℕ × Arr ℕ)

/-- the first switch: conversion to a temporary CSR matrix; first component: the input afterwards.
lis_matrix_ops.c:152-246 -/
def toCsr [Zero R] [DecidableEq R] (J : ConvJunk R) : AnyMat R → Option (AnyMat R × Csr R)
  | .csr A => some (.csr A, A)
  | .csc A => (csc2csr J.i1 J.v1 A).map fun C => (.csc A, C)
  | .msr nnz A => (msr2csr J.i1 J.v1 nnz A).map fun C => (.msr nnz A, C)
  | .dia A => (dia2csr J.i1 J.v1 A).map fun C => (.dia A, C)
  | .ell A => (ell2csr J.i1 J.v1 A).map fun C => (.ell A, C)
  | .jad A => (jad2csr J.i1 J.v1 A).map fun C => (.jad A, C)
  | .bsr A => (bsr2csr J.i1 J.v1 A).map fun C => (.bsr A, C)
  | .bsc A => (bsc2csr J.i1 J.v1 A).map fun C => (.bsc A, C)
  | .vbr A => (vbr2csr J.i1 J.v1 A).map fun C => (.vbr A, C)
  | .dns A => (dns2csr J.i1 J.v1 A).map fun C => (.dns A, C)
  | .coo A => (coo2csr J.i1 J.v1 A).map fun r => (.coo r.1, r.2)

/-- the second switch: from CSR to the wanted format; first component: the CSR matrix afterwards.
`none` as the output: LIS_ERR_NOT_IMPLEMENTED. lis_matrix_ops.c:266-312 -/
def fromCsr [Zero R] (J : ConvJunk R) (a : ConvArgs) (t : Fmt) (C : Csr R) : Option (Csr R × Option (AnyMat R)) :=
  match t with
  | .csr => some (C, some (.csr C))
  | .csc => (csr2csc J.i2 J.v2 C).map fun B => (C, some (.csc B))
  | .msr => (csr2msr J.i2 J.v2 C).map fun r => (C, some (.msr C.nnz r.1))
  | .dia => (csr2dia J.z J.v2 C).map fun r => (r.1, some (.dia r.2))
  | .ell => (csr2ell J.i2 J.v2 C).map fun B => (C, some (.ell B))
  | .jad => (csr2jad J.i2 J.v2 C).map fun B => (C, some (.jad B))
  | .bsr => (csr2bsr a.bnr a.bnc J.i2 J.v2 C).map fun B => (C, some (.bsr B))
  | .bsc => do
    let B ← csr2csc J.i2 J.v2 C
    let D ← csc2bsc a.bnr a.bnc J.i3 J.v3 B
    pure (C, some (.bsc D))
  | .vbr => match a.part with
    | some (nr, nc, row, col) => (csr2vbrWith nr nc row col J.i2 J.v2 C).map fun B => (C, some (.vbr B))
    | none => (csr2vbr J.i2 J.v2 C).map fun r => (r.1, some (.vbr r.2))
  | .dns => (csr2dns J.v2 C).map fun B => (C, some (.dns B))
  | .coo => (csr2coo J.i2 J.v2 C).map fun B => (C, some (.coo B))
  | .other => some (C, none)

/-- `is_block` of the input. lis_matrix_bsr.c:90,156, lis_matrix_bsc.c:91,157, lis_matrix_vbr.c:94 -/
def AnyMat.isBlock : AnyMat R → Bool
  | .bsr _ => true
  | .bsc _ => true
  | .vbr _ => true
  | _ => false

/-- conversion through CSR. lis_matrix_ops.c:152-321 -/
def convertViaCsr [Zero R] [DecidableEq R] (J : ConvJunk R) (a : ConvArgs) (t : Fmt) (A : AnyMat R) :
    Option (Err × AnyMat R × Option (AnyMat R)) := do
  let (A', C) ← toCsr J A
  let (C', B) ← fromCsr J a t C
  let A'' := match A with
    | .csr _ => AnyMat.csr C'
    | _ => A'
  match B with
  | some B => pure (Err.success, A'', some B)
  | none => pure (Err.notImplemented, A'', none)

/-- `lis_matrix_convert`.  Input and output of the same (non-block) format: `lis_matrix_copy`, simplified here to the
same arrays.  CSC → BSC is direct, everything else goes through CSR. lis_matrix_ops.c:127-322 -/
def matrixConvert [Zero R] [DecidableEq R] (J : ConvJunk R) (a : ConvArgs) (t : Fmt) (A : AnyMat R) :
    Option (Err × AnyMat R × Option (AnyMat R)) :=
  if A.fmt = t ∧ A.isBlock = false then some (Err.success, A, some A)
  else match A, t with
    | .csc A, .bsc => (csc2bsc a.bnr a.bnc J.i3 J.v3 A).map fun B => (Err.success, .csc A, some (.bsc B))
    | A, t => convertViaCsr J a t A

end Lis
