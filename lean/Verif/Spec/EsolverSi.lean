import Verif.Model.EsolverSi
import Verif.Spec.EsolverCg

/-!
# Subspace iteration: the iteration each mode makes

`m` is the (shifted) state of the matrices. No law of arithmetic is assumed.
-/

namespace Lis
variable {R S M : Type} {n : ℕ}

/-- a point of the iteration: the iterate `v`; the quotient `theta` and residual `resid` computed last, and the vector `u` they
were computed for; `err` is the error of the linear solver -/
structure SiPt (R S : Type) (n : ℕ) where
  v : Fin n → R
  u : Fin n → R
  theta : R
  resid : S
  err : Err

section steps
variable [Zero R] [One R] [Add R] [Neg R] [Sub R] [Mul R] [Div R] [DecidableEq R] [RealOps S] [EigOps R S]

omit [Zero R] [One R] [Sub R] [Div R] [DecidableEq R] [RealOps S] [EigOps R S] in
/-- `v` orthogonalized against the vectors `vs`, one after the other: `v ← v - ⟨v,w⟩ w` -/
def orthAll (K : Kit R S n) (vs : List (Fin n → R)) (v : Fin n → R) : Fin n → R :=
  vs.foldl (fun v w => axpyV (-K.dot v w) w v) v

/-- what the inner eigensolver makes of `u`: `A u`, or the linear solver's answer for right-hand side `u` (its initial guess is
`v`); any other inner eigensolver leaves the iterate as it was -/
def siImage (K : EKit R S M n) (inner : SiInner) (m : M) (u v : Fin n → R) : Err × (Fin n → R) :=
  match inner with
  | .pi => (.success, K.mv false m u)
  | .ii => K.lin false m u v
  | .other => (.success, v)

/-- one iteration of a mode with the vectors `vs` found before: `u` is `v` orthogonalized (and not normalized), `y` its image,
`theta = ⟨u,y⟩`, the residual `‖y - theta u‖/|theta|`, and the next iterate `y/‖y‖` -/
def siStep (K : EKit R S M n) (inner : SiInner) (m : M) (vs : List (Fin n → R)) (q : SiPt R S n) : SiPt R S n :=
  let k := K.base
  let u := orthAll k vs q.v
  let y := siImage K inner m u q.v
  if y.1 ≠ .success then { q with u := u, err := y.1 } else
  { v := unit k y.2, u := u, theta := k.dot u y.2, resid := relRes k (k.dot u y.2) u y.2, err := .success }

/-- an iteration that ends the mode -/
def siStop (lt : S → S → Bool) (o : EOpts R S) (q : SiPt R S n) : Bool :=
  decide (q.err ≠ .success) || lt q.resid o.tol

/-- the number of iterations made: up to the first one that ends the mode, at most `fuel` more than the `i` made -/
def iters (stop : ℕ → Bool) : ℕ → ℕ → ℕ
  | 0, i => i
  | k + 1, i => if stop (i + 1) then i + 1 else iters stop k (i + 1)

/-- iterations made in a mode that starts in `q` -/
def siIters (K : EKit R S M n) (lt : S → S → Bool) (inner : SiInner) (o : EOpts R S) (m : M) (vs : List (Fin n → R))
    (q : SiPt R S n) : ℕ :=
  iters (fun i => siStop lt o ((siStep K inner m vs)^[i] q)) o.maxiter 0

/-- where the mode ends -/
def siLast (K : EKit R S M n) (lt : S → S → Bool) (inner : SiInner) (o : EOpts R S) (m : M) (vs : List (Fin n → R))
    (q : SiPt R S n) : SiPt R S n :=
  (siStep K inner m vs)^[siIters K lt inner o m vs q] q

/-- the end points of the first `j` modes, in order; every mode starts where the one before it ended -/
def siEnds (K : EKit R S M n) (lt : S → S → Bool) (inner : SiInner) (o : EOpts R S) (m : M) (q : SiPt R S n) :
    ℕ → List (SiPt R S n)
  | 0 => []
  | j + 1 =>
    let l := siEnds K lt inner o m q j
    l ++ [siLast K lt inner o m (l.map SiPt.v) (l.getLast?.getD q)]

/-- iterations made in mode `j` (counted from 0) -/
def siIter (K : EKit R S M n) (lt : S → S → Bool) (inner : SiInner) (o : EOpts R S) (m : M) (q : SiPt R S n) (j : ℕ) : ℕ :=
  let l := siEnds K lt inner o m q j
  siIters K lt inner o m (l.map SiPt.v) (l.getLast?.getD q)

/-- end point of mode `j` (counted from 0) -/
def siMode' (K : EKit R S M n) (lt : S → S → Bool) (inner : SiInner) (o : EOpts R S) (m : M) (q : SiPt R S n) (j : ℕ) :
    SiPt R S n :=
  let l := siEnds K lt inner o m q j
  siLast K lt inner o m (l.map SiPt.v) (l.getLast?.getD q)

/-- where the first mode starts: the normalized constant vector -/
def siStart (K : EKit R S M n) (jt : R) (jr : S) : SiPt R S n :=
  ⟨unit K.base fun _ => 1, fun _ => 0, jt, jr, .success⟩
end steps
end Lis
