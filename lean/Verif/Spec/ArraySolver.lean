import Verif.Model.Machine
import Mathlib.Algebra.BigOperators.Fin
import Mathlib.Algebra.Star.Basic

namespace Lis
open Finset
variable {R S : Type} {n : ℕ}

/-- `A x` -/
def matMul [NonUnitalNonAssocSemiring R] (a : ℕ → ℕ → R) (v : Fin n → R) : Fin n → R := fun i => ∑ j : Fin n, a i j * v j

/-- `Aᴴ x` -/
def matMulH [NonUnitalNonAssocSemiring R] [Star R] (a : ℕ → ℕ → R) (v : Fin n → R) : Fin n → R :=
  fun j => ∑ i : Fin n, star (a i j) * v i

/-- textbook meaning of the calls for the matrix `a`: products, inner products `∑ conj(x_i) y_i`, `∑ x_i y_i`,
norms `sqrt(∑ conj(x_i) x_i)`, `∑ |x_i|`; the preconditioner, the triangular solve and the reciprocal diagonal are given -/
def mathKit [NonUnitalNonAssocSemiring R] [Star R] [AddCommMonoid S] (a : ℕ → ℕ → R) (sqrt fabs : R → S)
    (ps psh ls : (Fin n → R) → Fin n → R) (rdg : Fin n → R) : Kit R S n where
  mv := matMul a
  mvh := matMulH a
  ps := ps
  psh := psh
  ls := ls
  rdg := rdg
  dot := fun x y => ∑ i, star (x i) * y i
  nhdot := fun x y => ∑ i, x i * y i
  nrm2 := fun x => sqrt (∑ i, star (x i) * x i)
  nrm1 := fun x => ∑ i, fabs (x i)

end Lis
