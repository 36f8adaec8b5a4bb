import Verif.Model.EsolverGsi
import Verif.Spec.EsolverSi

/-!
# Generalized subspace iteration: the iteration each mode makes

`m` is the (shifted) state of the matrices. No law of arithmetic is assumed.
-/

namespace Lis
variable {R S M : Type} {n : ℕ}

/-- a point of the iteration: the iterate `v`; the auxiliary vector `w`; the quotient `theta` and residual `resid` computed last,
and the vector `u` they were computed for; `err` is the error of the linear solver -/
structure SgPt (R S : Type) (n : ℕ) where
  v : Fin n → R
  u : Fin n → R
  w : Fin n → R
  theta : R
  resid : S
  err : Err

section steps
variable [Zero R] [One R] [Add R] [Neg R] [Sub R] [Mul R] [Div R] [DecidableEq R] [RealOps S] [EigOps R S]

omit [Zero R] [Add R] [Neg R] [Sub R] [DecidableEq R] in
/-- the factor `1/⟨u, T u⟩^½`, `T` being `A` or `B` -/
def sgFactor (K : EKit R S M n) (b : Bool) (m : M) (u : Fin n → R) : R :=
  1 / EigOps.sqrt S (K.base.dot u (K.mv b m u))

/-- what the inner eigensolver makes of `u` (with previous iterate `v` and auxiliary vector `w`): error, scaled `u`, auxiliary
vector `w` (`A u` or `B u`, scaled) and the answer of the linear solver with `B` or `A` for right-hand side `w` and initial guess
`v`; any other inner eigensolver changes nothing -/
def sgImage (K : EKit R S M n) (inner : SgInner) (m : M) (u v w : Fin n → R) : Err × (Fin n → R) × (Fin n → R) × (Fin n → R) :=
  match inner with
  | .gpi => let f := sgFactor K false m u
            let w := smulV f (K.mv false m u)
            ((K.lin true m w v).1, smulV f u, w, (K.lin true m w v).2)
  | .gii => let f := sgFactor K true m u
            let w := smulV f (K.mv true m u)
            ((K.lin false m w v).1, smulV f u, w, (K.lin false m w v).2)
  | .other => (.success, u, w, v)

/-- one iteration of a mode with the vectors `vs` found before: `u` is `v` orthogonalized and scaled, `w` and `y` as in `sgImage`,
`theta = ⟨w,y⟩`, the residual `‖y - theta u‖/|theta|`, and the next iterate `y/‖y‖` -/
def sgStep (K : EKit R S M n) (inner : SgInner) (m : M) (vs : List (Fin n → R)) (q : SgPt R S n) : SgPt R S n :=
  let k := K.base
  let y := sgImage K inner m (orthAll k vs q.v) q.v q.w
  if y.1 ≠ .success then { q with u := y.2.1, w := y.2.2.1, err := y.1 } else
  { v := unit k y.2.2.2, u := y.2.1, w := y.2.2.1, theta := k.dot y.2.2.1 y.2.2.2,
    resid := relRes k (k.dot y.2.2.1 y.2.2.2) y.2.1 y.2.2.2, err := .success }

/-- an iteration that ends the mode -/
def sgStop (lt : S → S → Bool) (o : EOpts R S) (q : SgPt R S n) : Bool :=
  decide (q.err ≠ .success) || lt q.resid o.tol

/-- iterations made in a mode that starts in `q` -/
def sgIters (K : EKit R S M n) (lt : S → S → Bool) (inner : SgInner) (o : EOpts R S) (m : M) (vs : List (Fin n → R))
    (q : SgPt R S n) : ℕ :=
  iters (fun i => sgStop lt o ((sgStep K inner m vs)^[i] q)) o.maxiter 0

/-- where the mode ends -/
def sgLast (K : EKit R S M n) (lt : S → S → Bool) (inner : SgInner) (o : EOpts R S) (m : M) (vs : List (Fin n → R))
    (q : SgPt R S n) : SgPt R S n :=
  (sgStep K inner m vs)^[sgIters K lt inner o m vs q] q

/-- the end points of the first `j` modes, in order; every mode starts where the one before it ended -/
def sgEnds (K : EKit R S M n) (lt : S → S → Bool) (inner : SgInner) (o : EOpts R S) (m : M) (q : SgPt R S n) :
    ℕ → List (SgPt R S n)
  | 0 => []
  | j + 1 =>
    let l := sgEnds K lt inner o m q j
    l ++ [sgLast K lt inner o m (l.map SgPt.v) (l.getLast?.getD q)]

/-- iterations made in mode `j` (counted from 0) -/
def sgIter (K : EKit R S M n) (lt : S → S → Bool) (inner : SgInner) (o : EOpts R S) (m : M) (q : SgPt R S n) (j : ℕ) : ℕ :=
  let l := sgEnds K lt inner o m q j
  sgIters K lt inner o m (l.map SgPt.v) (l.getLast?.getD q)

/-- end point of mode `j` (counted from 0) -/
def sgMode' (K : EKit R S M n) (lt : S → S → Bool) (inner : SgInner) (o : EOpts R S) (m : M) (q : SgPt R S n) (j : ℕ) :
    SgPt R S n :=
  let l := sgEnds K lt inner o m q j
  sgLast K lt inner o m (l.map SgPt.v) (l.getLast?.getD q)

/-- where the first mode starts: the normalized constant vector; `w` is the content of the work vector -/
def sgStart (K : EKit R S M n) (jt : R) (jr : S) (w : Fin n → R) : SgPt R S n :=
  ⟨unit K.base fun _ => 1, fun _ => 0, w, jt, jr, .success⟩
end steps
end Lis
