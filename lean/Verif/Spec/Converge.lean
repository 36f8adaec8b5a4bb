import Mathlib.Algebra.BigOperators.Ring.Finset
import Mathlib.Analysis.Real.Sqrt
import Verif.Model.Solver

/-!
# Textbook conditions for the convergence of the stationary methods
-/

namespace Lis
open Finset

/-- the sum of the absolute values off the diagonal of row `i` -/
noncomputable def offDiag (n : ℕ) (a : ℕ → ℕ → ℝ) (i : ℕ) : ℝ := ∑ j ∈ (range n).erase i, |a i j|

/-- strictly diagonally dominant by rows -/
def StrictDom (n : ℕ) (a : ℕ → ℕ → ℝ) : Prop := ∀ i, i < n → offDiag n a i < |a i i|

/-- the square of the error in the energy norm -/
noncomputable def energyN (n : ℕ) (a : ℕ → ℕ → ℝ) (xs x : ℕ → ℝ) : ℝ :=
  ∑ i ∈ range n, ∑ j ∈ range n, (x i - xs i) * a i j * (x j - xs j)

/-- `xs` solves `A x = b` -/
def Solves (n : ℕ) (a : ℕ → ℕ → ℝ) (b xs : ℕ → ℝ) : Prop := ∀ i, i < n → ∑ j ∈ range n, a i j * xs j = b i

/-- What is promised of a run of a stationary solver that contracts the error by the factor `q`; `x0` is the initial
guess, `x'` the returned vector, `N` a number of iterations that is enough. -/
structure DomGuarantee (n : ℕ) (a : ℕ → ℕ → ℝ) (b x0 x' : ℕ → ℝ) (q : ℝ) (N : ℕ) (o : Opts ℝ ℝ) (out : Out ℝ) : Prop where
  /-- given enough iterations it succeeds, within `N` of them -/
  ret : N ≤ o.maxiter → out.ret = .success ∧ out.iter ≤ N
  /-- success or not, the largest error of a component was multiplied by at most `q` in each iteration -/
  rate : ∀ xs, Solves n a b xs → ∀ E, (∀ i, i < n → |x0 i - xs i| ≤ E) →
    ∀ i, i < n → |x' i - xs i| ≤ q ^ min out.iter o.maxiter * E
  /-- on success the error is at most `q * tol * ‖b‖₂ / δ`, `δ` being the margin of the dominance -/
  acc : out.ret = .success → ∀ xs, Solves n a b xs → ∀ δ, (∀ i, i < n → offDiag n a i + δ ≤ |a i i|) →
    ∀ i, i < n → δ * |x' i - xs i| ≤ q * (o.tol * Real.sqrt (∑ i ∈ range n, b i * b i))

/-- What is promised of a run on a symmetric positive definite matrix. -/
structure EnergyGuarantee (n : ℕ) (a : ℕ → ℕ → ℝ) (b x0 x' : ℕ → ℝ) (N : ℕ) (o : Opts ℝ ℝ) (out : Out ℝ) : Prop where
  /-- given enough iterations it succeeds, within `N` of them -/
  ret : N ≤ o.maxiter → out.ret = .success ∧ out.iter ≤ N
  /-- success or not, the error in the energy norm is not larger than at the start -/
  en : ∀ xs, Solves n a b xs → energyN n a xs x' ≤ energyN n a xs x0

end Lis
