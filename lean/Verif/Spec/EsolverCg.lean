import Verif.Model.EsolverCg
import Verif.Spec.Esolver

/-!
# The CG and CR eigensolvers: the iterations, and how they end

`m` is the (shifted) state of the matrices; it does not change during the iterations. No law of arithmetic is assumed.
-/

namespace Lis
variable {R S M : Type} {n : ℕ}

/-- what the iterations work on. `Ax`, `Ap`, `Bx`, `Bp` are the vectors kept as images of `x` and `p`;
`lam`, `resid` are the last eigenvalue and residual computed. -/
structure CPt (R S : Type) (n : ℕ) where
  x : Fin n → R
  r : Fin n → R
  p : Fin n → R
  Ax : Fin n → R
  Ap : Fin n → R
  Bx : Fin n → R
  Bp : Fin n → R
  lam : R
  resid : S

/-- the loop is left after `k` iterations with residuals `resid 1 … resid k`: either the last is below the tolerance (and
none before) or all iterations are made; the history array `a` becomes `a'` -/
structure Stops (lt : S → S → Bool) (o : EOpts R S) (resid : ℕ → S) (a a' : Arr S) (k : ℕ) : Prop where
  le : k ≤ o.maxiter
  before : ∀ j, 1 ≤ j → j < k → lt (resid j) o.tol = false
  stop : k < o.maxiter → 1 ≤ k ∧ lt (resid k) o.tol = true
  size : a'.size = a.size
  rec_ : o.mem = true → ∀ j, 1 ≤ j → j ≤ k → a'.get j = resid j
  frame : ∀ j, (o.mem = false ∨ j = 0 ∨ k < j) → a'.get j = a.get j

section steps
variable [Zero R] [One R] [Add R] [Neg R] [Sub R] [Mul R] [Div R] [DecidableEq R] [RealOps S] [EigOps R S]

/-- `y + a x`, `x + a y`, `a x + y` as the vector functions compute them -/
def axpyV (a : R) (x y : Fin n → R) : Fin n → R := fun i => y i + a * x i
def xpayV (x : Fin n → R) (a : R) (y : Fin n → R) : Fin n → R := fun i => x i + a * y i
def axpyzV (a : R) (x y : Fin n → R) : Fin n → R := fun i => a * x i + y i

/-- one CR step: `x' = x + alpha p` with `alpha = ⟨r,(A-lam)p⟩/‖(A-lam)p‖²`, `lam' = ⟨x',Ax'⟩/‖x'‖²`, `r' = lam' x' - A x'`,
`w = M⁻¹ r'`, `p' = w + beta p`; the residual is `‖r'‖/|lam'|` -/
def crStep (K : EKit R S M n) (m : M) (q : CPt R S n) : CPt R S n :=
  let k := K.base
  let A := K.mv false m
  let den (l : R) : R := k.dot q.Ap q.Ap - (1 + 1) * l * k.dot q.p q.Ap + l * l * k.dot q.p q.p
  let alpha := (k.dot q.r q.Ap - q.lam * k.dot q.r q.p) / den q.lam
  let x := axpyV alpha q.p q.x
  let lam := k.dot x (A x) / EigOps.ofS (k.nrm2 x * k.nrm2 x)
  let r := smulV (-1) (axpyzV (-lam) x (A x))
  let w := k.ps r
  let beta := -(k.dot (A w) q.Ap - lam * (k.dot q.p (A w) + k.dot w q.Ap) + lam * lam * k.dot w q.p) / den lam
  { q with x := x, r := r, p := xpayV w beta q.p, Ax := A x, Ap := xpayV (A w) beta q.Ap, lam := lam,
           resid := k.nrm2 r / EigOps.fabs lam }

/-- one generalized CR step: `lam' = ⟨Ax',Bx'⟩/⟨Bx',Bx'⟩`, `r' = lam' B x' - A x'` -/
def gcrStep (K : EKit R S M n) (m : M) (q : CPt R S n) : CPt R S n :=
  let k := K.base
  let A := K.mv false m
  let B := K.mv true m
  let den (l : R) : R := k.dot q.Ap q.Ap - (1 + 1) * l * k.dot q.Ap q.Bp + l * l * k.dot q.Bp q.Bp
  let alpha := (k.dot q.r q.Ap - q.lam * k.dot q.r q.Bp) / den q.lam
  let x := axpyV alpha q.p q.x
  let lam := k.dot (A x) (B x) / k.dot (B x) (B x)
  let r := smulV (-1) (axpyzV (-lam) (B x) (A x))
  let w := k.ps r
  let beta := -(k.dot (A w) q.Ap - lam * (k.dot (A w) q.Bp + k.dot q.Ap (B w)) + lam * lam * k.dot (B w) q.Bp) / den lam
  { x := x, r := r, p := xpayV w beta q.p, Ax := A x, Ap := xpayV (A w) beta q.Ap, Bx := B x, Bp := xpayV (B w) beta q.Bp,
    lam := lam, resid := k.nrm2 r / EigOps.fabs lam }

/-- one CG step: `lam = ⟨x,Ax⟩`, `r = x - Ax/lam`, residual `‖r‖`; unless that is below the tolerance, with
`w = M⁻¹r/‖M⁻¹r‖` and a vector `v`: `p' = v₀ w + v₂ p`, `x' = p' + v₁ x`, both normalized, and the same for the images -/
def cgStep (rr : Arr R → Arr R → R × R × R) (lt : S → S → Bool) (tol : S) (K : EKit R S M n) (m : M) (q : CPt R S n) :
    CPt R S n :=
  let k := K.base
  let A := K.mv false m
  let lam := k.dot q.x q.Ax
  let r := axpyzV (-1 / lam) q.Ax q.x
  let resid := k.nrm2 r
  if lt resid tol then { q with r := r, lam := lam, resid := resid } else
  let w := unit k (k.ps r)
  let v := rr
    (mat3 (k.dot w (A w)) (k.dot q.x (A w)) (k.dot q.p (A w)) (k.dot q.x q.Ax) (k.dot q.p q.Ax) (k.dot q.p q.Ap))
    (mat3 (k.dot w w) (k.dot q.x w) (k.dot q.p w) (k.dot q.x q.x) (k.dot q.p q.x) (k.dot q.p q.p))
  let p := axpyV v.2.2 q.p (smulV v.1 w)
  let x := xpayV p v.2.1 q.x
  let Ap := axpyV v.2.2 q.Ap (smulV v.1 (A w))
  let Ax := xpayV Ap v.2.1 q.Ax
  let cx : R := EigOps.ofS (1 / k.nrm2 x)
  let cp : R := EigOps.ofS (1 / k.nrm2 p)
  { q with x := smulV cx x, r := r, p := smulV cp p, Ax := smulV cx Ax, Ap := smulV cp Ap, lam := lam, resid := resid }

/-- one step of `lis_egcg`: `Ax`, `Ap`, `Bx`, `Bp` are updated as in `cgStep`, `x` and `p` are only normalized again -/
def gcgStep (rr : Arr R → Arr R → R × R × R) (lt : S → S → Bool) (tol : S) (K : EKit R S M n) (m : M) (q : CPt R S n) :
    CPt R S n :=
  let k := K.base
  let A := K.mv false m
  let B := K.mv true m
  let lam := k.dot q.Ax q.Bx / k.dot q.Bx q.Bx
  let r := axpyzV (-1 / lam) q.Ax q.Bx
  let resid := k.nrm2 r
  if lt resid tol then { q with r := r, lam := lam, resid := resid } else
  let w := unit k (k.ps r)
  let v := rr
    (mat3 (k.dot w (A w)) (k.dot q.x (A w)) (k.dot q.p (A w)) (k.dot q.x q.Ax) (k.dot q.p q.Ax) (k.dot q.p q.Ap))
    (mat3 (k.dot w (B w)) (k.dot q.x (B w)) (k.dot q.p (B w)) (k.dot q.x q.Bx) (k.dot q.p q.Bx) (k.dot q.p q.Bp))
  let Bp := axpyV v.2.2 q.Bp (smulV v.1 (B w))
  let Bx := xpayV Bp v.2.1 q.Bx
  let Ap := axpyV v.2.2 q.Ap (smulV v.1 (A w))
  let Ax := xpayV Ap v.2.1 q.Ax
  let cx : R := EigOps.ofS (1 / k.nrm2 q.x)
  let cp : R := EigOps.ofS (1 / k.nrm2 q.p)
  { x := smulV cx q.x, r := r, p := smulV cp q.p, Ax := smulV cx Ax, Ap := smulV cp Ap, Bx := smulV cx Bx,
    Bp := smulV cp Bp, lam := lam, resid := resid }

/-- where CR starts from the vector `u`: `x = u/‖u‖`, `lam = ⟨x,Ax⟩`, `r = lam x - A x`, `p = r` -/
def crStart (K : EKit R S M n) (m : M) (u : Fin n → R) (jr : S) : CPt R S n :=
  let A := K.mv false m
  let x := unit K.base u
  let lam := K.base.dot x (A x)
  let r := smulV (-1) (axpyzV (-lam) x (A x))
  { x := x, r := r, p := r, Ax := A x, Ap := A r, Bx := x, Bp := r, lam := lam, resid := jr }

/-- where generalized CR starts: `lam = ⟨Ax,Bx⟩/⟨Bx,Bx⟩`, `r = lam B x - A x`, `p = r` -/
def gcrStart (K : EKit R S M n) (m : M) (u : Fin n → R) (jr : S) : CPt R S n :=
  let A := K.mv false m
  let B := K.mv true m
  let x := unit K.base u
  let lam := K.base.dot (A x) (B x) / K.base.dot (B x) (B x)
  let r := smulV (-1) (axpyzV (-lam) (B x) (A x))
  { x := x, r := r, p := r, Ax := A x, Ap := A r, Bx := B x, Bp := B r, lam := lam, resid := jr }

/-- where CG starts: `x = u/‖u‖`, `p` the answer of the linear solver for the right-hand side `x`, and `x` taken as `A p` -/
def cgStart (K : EKit R S M n) (m : M) (u p : Fin n → R) (jl : R) (jr : S) : CPt R S n :=
  let x := unit K.base u
  { x := x, r := x, p := p, Ax := K.mv false m x, Ap := x, Bx := K.mv true m x, Bp := K.mv true m p, lam := jl, resid := jr }

/-- the result reported at the point `q` after `k` iterations: success exactly if the residual is below the tolerance -/
def cgOut (lt : S → S → Bool) (o : EOpts R S) (k : ℕ) (q : CPt R S n) : EOut R S :=
  ⟨if lt q.resid o.tol then .success else .maxiter, some (k, q.resid, q.lam + o.sigma)⟩

end steps
end Lis
