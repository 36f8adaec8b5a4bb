import Verif.Model.Solver2
import Verif.Model.Array

/-!
# lis_idrs, lis_idr1 (src/solver/lis_solver_idrs.c), double precision versions

Same conventions as `Model/Solver.lean`; `PRE_RIGHT` is the compiled variant (src/solver/lis_solver_idrs.c:50).
`rnd k` is the sequence of random numbers given to `P[k]`, `toR` the conversion of a `LIS_REAL` to a `LIS_SCALAR` (the
identity in the real build).  `h -= z*c` is written as `h + z*(-c)`.
-/

namespace Lis
variable {R S : Type}

/-- the first `s` elements of a local array -/
def aList (c : Arr R) (s : ℕ) : Prog R S (List R) :=
  if c.size < s then .undef else pure ((List.range s).map c.get)

section
variable [Zero R] [One R] [Add R] [Neg R] [Mul R] [Div R] [Sub R] [Star R] [DecidableEq R] [RealOps S]

/-- `lis_idrs_orth`; `P` gives the handles. src/solver/lis_solver_idrs.c:201-219 -/
def idrsOrth (toR : S → R) (s : ℕ) (P : ℕ → ℕ) : Prog R S Unit :=
  pfor (fun j _ => do
    let r ← vNrm2 (P j)
    let r := 1 / r
    vScale (toR r) (P j)
    pfor (fun i _ => do
      let d ← vDot (P j) (P i)
      vAxpy (-d) (P j) (P i)) (s - (j + 1)) (j + 1) ()) s 0 ()

/-! ### lis_idrs: r=work[0], t=work[1], v=work[2], av=work[3], dX[j]=work[4+j], P[j]=work[4+s+j], dR[j]=work[4+2s+j] -/

abbrev idX (j : ℕ) : ℕ := wk (4 + j)
abbrev idP (s j : ℕ) : ℕ := wk (4 + s + j)
abbrev idR (s j : ℕ) : ℕ := wk (4 + 2 * s + j)

/-- `for(i=0;i<s;i++) lis_vector_dot(P[i],v,&a[base+i])` -/
def idrsDots (s v base : ℕ) (a : Arr R) : Prog R S (Arr R) :=
  pfor (fun i a => do
    let d ← vDot (idP s i) v
    aWr a (base + i) d) s 0 a

/-- one of the first `s` steps; state: (M, om), residual. src/solver/lis_solver_idrs.c:589-638 -/
def idrsInit (s : ℕ) (o : Opts R S) (t : Tols S) (k : ℕ) (st : (Arr R × R) × S) :
    Prog R S (((Arr R × R) × S) ⊕ Out S) := do
  if hk : k < s then do
    mPsolve (wk 0) (idX k) (by simp only [idX, wk]; omega)
    mMatvec (idX k) (idR s k) (by simp only [idX, idR, wk]; omega)
    let h ← vDot (idR s k) (idR s k)
    let om ← vDot (idR s k) (wk 0)
    let om := om / h
    vScale om (idX k)
    vScale (-om) (idR s k)
    vAxpy 1 (idX k) hX
    vAxpy 1 (idR s k) (wk 0)
    let nrm2 ← checkResid o t (k + 1) (wk 0)
    if nrm2 ≤ t.tol then pure (.inr ⟨.success, k + 1, nrm2⟩)
    else do
      let M ← idrsDots s (idR s k) (k * s) st.1.1
      pure (.inl ((M, om), nrm2))
  else pure (.inl st)

/-- the scalars of the main loop -/
structure IdrsSt (R : Type) where
  M : Arr R
  m : Arr R
  c : Arr R
  MM : Arr R
  om : R
  oldest : ℕ

/-- the new `dX[oldest]`, `dR[oldest]`. src/solver/lis_solver_idrs.c:659-730 -/
def idrsDir (s iter : ℕ) (om : R) (old : ℕ) (hs : 1 ≤ s) (cl : List R) : Prog R S R := do
  if iter % (s + 1) = s then do
    mPsolve (wk 2) (wk 3)
    mMatvec (wk 3) (wk 1)
    let h ← vDot (wk 1) (wk 1)
    let om ← vDot (wk 1) (wk 2)
    let om := om / h
    vComb om (wk 3) (cl.zipIdx.map fun p => (-p.1, idX p.2)) (idX old)
    vComb (-om) (wk 1) (cl.zipIdx.map fun p => (-p.1, idR s p.2)) (idR s old)
    pure om
  else do
    mPsolve (wk 2) (wk 3)
    vComb om (wk 3) (cl.zipIdx.map fun p => (-p.1, idX p.2)) (idX old)
    mMatvec (idX old) (idR s old) (by simp only [idX, idR, wk]; omega)
    vScale (-1) (idR s old)
    pure om

/-- one pass of the main loop, entered with `iter`.  With `s = 0` the vectors `dX[0]`, … do not exist
(`worklen = 4+3*s`, src/solver/lis_solver_idrs.c:82). src/solver/lis_solver_idrs.c:647-767 -/
def idrsBody (s : ℕ) (o : Opts R S) (t : Tols S) (iter : ℕ) (st : IdrsSt R × S) :
    Prog R S ((IdrsSt R × S) ⊕ Out S) :=
  if hs : 1 ≤ s then do
    let (c, MM) ← Prog.ofOption (arraySolve s st.1.M st.1.m st.1.c st.1.MM)
    vCopy (wk 0) (wk 2)
    let cl ← aList c s
    pfor (fun j _ => do
      let cj ← aRd c j
      vAxpy (-cj) (idR s j) (wk 2)) s 0 ()
    let om ← idrsDir s iter st.1.om st.1.oldest hs cl
    let old := st.1.oldest
    vAxpy 1 (idR s old) (wk 0)
    vAxpy 1 (idX old) hX
    let nrm2 ← checkResid o t (iter + 1) (wk 0)
    if nrm2 ≤ t.tol then pure (.inr ⟨.success, iter + 1, nrm2⟩)
    else do
      let (m, M) ← pfor (fun i p => do
        let h ← vDot (idP s i) (idR s old)
        let mi ← aRd p.1 i
        let m ← aWr p.1 i (mi + h)
        let M ← aWr p.2 (old * s + i) h
        pure (m, M)) s 0 (st.1.m, st.1.M)
      pure (.inl (⟨M, m, c, MM, om, if old + 1 = s then 0 else old + 1⟩, nrm2))
  else .undef

/-- `lis_idrs` with `s = LIS_OPTIONS_IDRS_RESTART`; `J` is what is in the fresh blocks `m`, `c`, `M`, `MM`, `junk`, `jom`
the uninitialised `nrm2`, `om`. src/solver/lis_solver_idrs.c:526-776 -/
def lisIdrs (s : ℕ) (J : ℕ → R) (junk : S) (jom : R) (toR : S → R) (rnd : ℕ → ℕ → R) (o : Opts R S) :
    Prog R S (Out S) := do
  match ← initialResidual o (wk 0) (by decide) with
  | .inl out => pure out
  | .inr t => do
    pfor (fun k _ => vFill (rnd k) (idP s k)) s 0 ()
    idrsOrth toR s (idP s)
    match ← forIter (idrsInit s o t) s 0 ((.malloc (s * s) J, jom), junk) with
    | .inr out => pure out
    | .inl st => do
      let m ← idrsDots s (wk 0) 0 (.malloc s J)
      match ← forIter (idrsBody s o t) (o.maxiter + 1 - s) s
          (⟨st.1.1, m, .malloc s J, .malloc (s * s) J, st.1.2, 0⟩, st.2) with
      | .inr out => pure out
      | .inl st => pure ⟨.maxiter, max s (o.maxiter + 1), st.2⟩

/-! ### lis_idr1: r=work[0], t=work[1], v=work[2], av=work[3], P[0]=work[4], dX[0]=work[5], dR[0]=work[6] -/

/-- One pass of the loop (two iterations), entered with `iter`; state (M, m).  The hand written inner products
(without conjugate, lines 374-380) are `vNhdot`. src/solver/lis_solver_idrs.c:329-512 -/
def idr1Body (o : Opts R S) (t : Tols S) (iter : ℕ) (st : (R × R) × S) : Prog R S (((R × R) × S) ⊕ Out S) := do
  let c := st.1.2 / st.1.1
  vAxpyz (-c) (wk 6) (wk 0) (wk 2)
  mPsolve (wk 2) (wk 3)
  mMatvec (wk 3) (wk 1)
  let h ← vNhdot (wk 1) (wk 1)
  let om ← vNhdot (wk 1) (wk 2)
  let om := om / h
  vComb om (wk 3) [(-c, wk 5)] (wk 5)
  vComb (-om) (wk 1) [(-c, wk 6)] (wk 6)
  vAxpy 1 (wk 6) (wk 0)
  vAxpy 1 (wk 5) hX
  let nrm2 ← checkResid o t (iter + 1) (wk 0)
  if nrm2 ≤ t.tol then pure (.inr ⟨.success, iter + 1, nrm2⟩)
  else do
    let h ← vDot (wk 4) (wk 6)
    let m := st.1.2 + h
    let c := m / h
    vAxpyz (-c) (wk 6) (wk 0) (wk 2)
    mPsolve (wk 2) (wk 3)
    vComb om (wk 3) [(-c, wk 5)] (wk 5)
    mMatvec (wk 5) (wk 6)
    vScale (-1) (wk 6)
    vAxpy 1 (wk 6) (wk 0)
    vAxpy 1 (wk 5) hX
    let nrm2 ← checkResid o t (iter + 2) (wk 0)
    if nrm2 ≤ t.tol then pure (.inr ⟨.success, iter + 2, nrm2⟩)
    else do
      let h ← vDot (wk 4) (wk 6)
      pure (.inl ((h, m + h), nrm2))

/-- `lis_idr1`.  The loop is entered with `iter = 1, 3, 5, …` while `iter ≤ maxiter`: `(maxiter+1)/2` passes; it ends
with `iter = 2*((maxiter+1)/2)+1`. src/solver/lis_solver_idrs.c:223-520 -/
def lisIdr1 (toR : S → R) (rnd : ℕ → R) (o : Opts R S) : Prog R S (Out S) := do
  match ← initialResidual o (wk 0) (by decide) with
  | .inl out => pure out
  | .inr t => do
    vFill rnd (wk 4)
    idrsOrth toR 1 (fun _ => wk 4)
    mPsolve (wk 0) (wk 5)
    mMatvec (wk 5) (wk 6)
    let h ← vDot (wk 6) (wk 6)
    let om ← vDot (wk 6) (wk 0)
    let om := om / h
    vScale om (wk 5)
    vScale (-om) (wk 6)
    vAxpy 1 (wk 5) hX
    vAxpy 1 (wk 6) (wk 0)
    let nrm2 ← checkResid o t 1 (wk 0)
    if nrm2 ≤ t.tol then pure ⟨.success, 1, nrm2⟩
    else do
      let M ← vDot (wk 4) (wk 6)
      let m ← vDot (wk 4) (wk 0)
      match ← forIter (fun j => idr1Body o t (2 * j + 1)) ((o.maxiter + 1) / 2) 0 ((M, m), nrm2) with
      | .inr out => pure out
      | .inl st => pure ⟨.maxiter, 2 * ((o.maxiter + 1) / 2) + 1, st.2⟩

end
end Lis
