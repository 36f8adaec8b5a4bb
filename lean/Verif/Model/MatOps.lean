import Verif.Model.Convert

/-
Linear combinations of matrices: `lis_matrix_axpy`, `lis_matrix_xpay`, `lis_matrix_axpyz`
(/repo/src/matrix/lis_matrix_ops.c:487-575, src/matrix/lis_matrix_dns.c:277-449) and
`lis_matrix_shift_matrix` (lis_matrix_ops.c:831-857).  Serial build.
-/
namespace Lis
variable {R : Type}

/-- the field `A->value` of the matrix structure, whatever the storage format (include/lis.h, struct
LIS_MATRIX_STRUCT) -/
def AnyMat.value : AnyMat R → Arr R
  | .csr A => A.value | .csc A => A.value | .msr _ A => A.value | .dia A => A.value | .ell A => A.value
  | .jad A => A.value | .bsr A => A.value | .bsc A => A.value | .vbr A => A.value | .dns A => A.value
  | .coo A => A.value

/-- the matrix with other contents of `A->value` -/
def AnyMat.setValue (v : Arr R) : AnyMat R → AnyMat R
  | .csr A => .csr { A with value := v } | .csc A => .csc { A with value := v }
  | .msr k A => .msr k { A with value := v } | .dia A => .dia { A with value := v }
  | .ell A => .ell { A with value := v } | .jad A => .jad { A with value := v }
  | .bsr A => .bsr { A with value := v } | .bsc A => .bsc { A with value := v }
  | .vbr A => .vbr { A with value := v } | .dns A => .dns { A with value := v }
  | .coo A => .coo { A with value := v }

/-- a matrix with, when it is split (`is_splited`), the array `A->D->value` of its diagonal (for the
dense format `A->value` stays complete: lis_matrix_dns.c, lis_matrix_split_dns) -/
structure SMat (R : Type) where
  M : AnyMat R
  D : Option (Arr R)

/-- the double loop `for(j<np) for(i<n) c[j*n+i] = f(a[j*n+i], b[j*n+i])`
(lis_matrix_dns.c:307-313, 365-371, 423-429) -/
def dnsZip (f : R → R → R) (n np : ℕ) (a b c : Arr R) : Option (Arr R) :=
  loop 0 np c fun j c => loop 0 n c fun i c => do
    let x ← a.rd (j * n + i)
    let y ← b.rd (j * n + i)
    c.wr (j * n + i) (f x y)

/-- the same with `b` and `c` one array: `b[j*n+i] = f(a[j*n+i], b[j*n+i])` -/
def dnsUpd (f : R → R → R) (n np : ℕ) (a b : Arr R) : Option (Arr R) :=
  loop 0 np b fun j b => loop 0 n b fun i b => do
    let x ← a.rd (j * n + i)
    let y ← b.rd (j * n + i)
    b.wr (j * n + i) (f x y)

/-- `for(i<n) b[i] = f(a[i],b[i])` on the diagonals (lis_matrix_dns.c:316-325, 374-383) when both
matrices are split; otherwise the diagonal is left alone (the LIS_ERR_ILL_ARG returned then, 326-330, is
not looked at by the caller) -/
def diagUpd (f : R → R → R) (n : ℕ) (a b : Option (Arr R)) : Option (Option (Arr R)) :=
  match a, b with
  | some a, some b => (loop 0 n b fun i b => do
      let x ← a.rd i
      let y ← b.rd i
      b.wr i (f x y)).map some
  | _, b => some b

/-- `lis_matrix_axpy`/`lis_matrix_xpay` with `f a b` = `b + alpha*a` / `a + alpha*b`.  Only the storage
format of `A` is looked at. lis_matrix_ops.c:489-543 -/
def matrixUpd (f : R → R → R) (A B : SMat R) : Option (Err × SMat R) :=
  match A.M with
  | .dns A' => do
    let v ← dnsUpd f A'.n A'.np A'.value B.M.value
    let D ← diagUpd f A'.n A.D B.D
    pure (.success, ⟨B.M.setValue v, D⟩)
  | _ => some (.notImplemented, B)

/-- `lis_matrix_axpy`: B := B + alpha A. lis_matrix_ops.c:489-514, lis_matrix_dns.c:280-334 -/
def matrixAxpy [Add R] [Mul R] (alpha : R) (A B : SMat R) : Option (Err × SMat R) :=
  matrixUpd (fun a b => b + alpha * a) A B

/-- `lis_matrix_xpay`: B := A + alpha B. lis_matrix_ops.c:518-543, lis_matrix_dns.c:338-392 -/
def matrixXpay [Add R] [Mul R] (alpha : R) (A B : SMat R) : Option (Err × SMat R) :=
  matrixUpd (fun a b => a + alpha * b) A B

/-- the diagonals in `lis_matrix_axpyz_dns` (lis_matrix_dns.c:432-446) -/
def diagZip (f : R → R → R) (n : ℕ) (a b c : Option (Arr R)) : Option (Option (Arr R)) :=
  match a, b, c with
  | some a, some b, some c => (loop 0 n c fun i c => do
      let x ← a.rd i
      let y ← b.rd i
      c.wr i (f x y)).map some
  | _, _, c => some c

/-- `lis_matrix_axpyz`: C := alpha A + B. lis_matrix_ops.c:547-575, lis_matrix_dns.c:396-449 -/
def matrixAxpyz [Add R] [Mul R] (alpha : R) (A B C : SMat R) : Option (Err × SMat R) :=
  match A.M with
  | .dns A' => do
    let v ← dnsZip (fun a b => alpha * a + b) A'.n A'.np A'.value B.M.value C.M.value
    let D ← diagZip (fun a b => alpha * a + b) A'.n A.D B.D C.D
    pure (.success, ⟨C.M.setValue v, D⟩)
  | _ => some (.notImplemented, C)

/-- what the last `lis_matrix_convert(Atmp,A)` of `lis_matrix_shift_matrix` does to the assembled matrix
`A`, `X` being the converted matrix: with a CSR target, `A` gets the new storage (lis_matrix_ops.c:236-246);
in every other format the new arrays are handed to `lis_matrix_set_*`, which returns at once when the
matrix is assembled (e.g. lis_matrix_msr.c:88-91, lis_matrix_dns.c:91; `lis_matrix_copy` for a dense `A`
likewise). -/
def storeInto (A : AnyMat R) (X : Option (AnyMat R)) : AnyMat R :=
  match A with
  | .csr A' => X.getD (.csr A')
  | A => A

/-- the dense matrix inside, if the matrix is dense -/
def AnyMat.dense? : Option (AnyMat R) → Option (Dns R)
  | some (.dns A) => some A
  | _ => none

/-- `lis_matrix_shift_matrix(A,B,sigma)`: return code, `A` and `B` afterwards (the conversions may sort
them).  `a` are the block sizes stored in `A`; the two temporaries are dense, for which block sizes are
not used. lis_matrix_ops.c:833-857 -/
def shiftMatrix [Zero R] [Add R] [Mul R] [Neg R] [DecidableEq R] (J1 J2 J3 : ConvJunk R) (a : ConvArgs) (sigma : R)
    (A B : AnyMat R) : Option (Err × AnyMat R × AnyMat R) := do
  let r1 ← matrixConvert J1 a .dns A
  let Ad ← AnyMat.dense? r1.2.2
  let r2 ← matrixConvert J2 a .dns B
  let Bd ← AnyMat.dense? r2.2.2
  let v ← dnsUpd (fun x y => y + -sigma * x) Bd.n Bd.np Bd.value Ad.value
  let r3 ← matrixConvert J3 a r1.2.1.fmt (.dns { Ad with value := v })
  pure (.success, storeInto r1.2.1 r3.2.2, r2.2.1)

end Lis
