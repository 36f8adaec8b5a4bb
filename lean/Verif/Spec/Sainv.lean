import Verif.Base.C
import Mathlib.Algebra.BigOperators.Group.Finset.Basic
import Mathlib.Algebra.Field.Defs

/-!
# Biconjugation with dropping, in mathematical terms

The algorithm printed in the comment src/precon/lis_precon_sainv.c:107-119:
```
 W = I, Z = I
 for i=1,...,n
   l    = A * Z_i
   u    = W_i^T * A
   D_ii = u * Z_i
   for j>i:  W_j = W_j - drop( (l_j/D_ii)*W_i, tol )
   for j>i:  Z_j = Z_j - drop( (u_j/D_ii)*Z_i, tol )
```
-/

namespace Lis
open Finset
variable {R : Type}

/-- the vectors `W_j`, `Z_j`: component `c` of vector `j` -/
structure Biconj (R : Type) where
  W : ℕ → ℕ → R
  Z : ℕ → ℕ → R

/-- component `j` of `l = A Z_i` -/
def Biconj.l [Field R] (n : ℕ) (a : ℕ → ℕ → R) (s : Biconj R) (i j : ℕ) : R := ∑ k ∈ range n, a j k * s.Z i k

/-- component `j` of `u = W_i^T A` -/
def Biconj.u [Field R] (n : ℕ) (a : ℕ → ℕ → R) (s : Biconj R) (i j : ℕ) : R := ∑ k ∈ range n, a k j * s.W i k

/-- `D_ii = u Z_i` -/
def Biconj.piv [Field R] (n : ℕ) (a : ℕ → ℕ → R) (s : Biconj R) (i : ℕ) : R := ∑ k ∈ range n, s.u n a i k * s.Z i k

/-- one step; `drop i t` is `t`, or 0 if it is to be dropped -/
def Biconj.step [Field R] (n : ℕ) (a : ℕ → ℕ → R) (drop : ℕ → R → R) (i : ℕ) (s : Biconj R) : Biconj R where
  W j c := if i < j then s.W j c - drop i (s.l n a i j / s.piv n a i * s.W i c) else s.W j c
  Z j c := if i < j then s.Z j c - drop i (s.u n a i j / s.piv n a i * s.Z i c) else s.Z j c

/-- the vectors after `m` steps -/
def biconj [Field R] (n : ℕ) (a : ℕ → ℕ → R) (drop : ℕ → R → R) : ℕ → Biconj R
  | 0 => ⟨fun j c => if c = j then 1 else 0, fun j c => if c = j then 1 else 0⟩
  | m + 1 => (biconj n a drop m).step n a drop m

end Lis
