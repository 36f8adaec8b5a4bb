import Verif.Model.Lanczos

/-!
# Arnoldi iteration (src/esolver/lis_esolver_ai.c), standard eigenproblem, real build

Handles: `w = esolver->work[0]` is vector 1, `v[j] = esolver->work[1+j]` is vector `2+j`. `h` has `ss*ss` elements,
element (i,j) at `i+j*ss`. Not modelled: printing, timing, the refinement (the same statements as in `lis_eli`, without the
last three assignments; src/esolver/lis_esolver_ai.c:311-372).
-/

namespace Lis
variable {R S : Type}

abbrev aiW : ℕ := 1
abbrev aiV (j : ℕ) : ℕ := 2 + j

section
variable [Zero R] [One R] [Add R] [Neg R] [Mul R] [Div R] [RealOps S] [EigOps R S]

/-- `for (i=0;i<=j;i++) { lis_vector_dot(v[i],w,&h[i+j*ss]); lis_vector_axpy(-h[i+j*ss],v[i],w); }`.
src/esolver/lis_esolver_ai.c:219-225 -/
def aiOrth (ss j : ℕ) (h : Arr R) : Prog R S (Arr R) :=
  pfor (fun i h => do
    let d ← vDot (aiV i) aiW
    let h ← aWr h (i + j * ss) d
    let d ← aRd h (i + j * ss)
    vAxpy (-d) (aiV i) aiW
    pure h) (j + 1) 0 h

/-- one pass of the loop; `true` is the `break`. src/esolver/lis_esolver_ai.c:212-237 -/
def aiStep (lt : S → S → Bool) (tol : S) (ss j : ℕ) (h : Arr R) : Prog R S (Bool × Arr R) := do
  mMatvec (aiV j) aiW (by simp only [aiV, aiW]; omega)
  let h ← aiOrth ss j h
  let b ← (vNrm2 aiW : Prog R S S)
  let h ← aWr h (j + 1 + j * ss) (EigOps.ofS b)
  let b ← aRd h (j + 1 + j * ss)
  if lt (EigOps.fabs b) tol then pure (true, h)
  else do
    vScale (1 / b) aiW
    vCopy aiW (aiV (j + 1))
    pure (false, h)

/-- the part up to the eigenvalues of `h`; `j=-1; while (j<ss-1) { j = j+1; … }` makes the passes `j = 0,…,ss-1`.
src/esolver/lis_esolver_ai.c:178-238 -/
def aiHess (lt : S → S → Bool) (junk : ℕ → R) (tol : S) (ss : ℕ) : Prog R S (ℕ × Arr R) := do
  vSetAll 1 (aiV 0)
  let nrm2 ← (vNrm2 (aiV 0) : Prog R S S)
  vScale (EigOps.ofS (1 / nrm2)) (aiV 0)
  let h ← Prog.ofOption (liZero ss (Arr.malloc (ss * ss) junk))
  liWhile (aiStep lt tol ss) ss 0 h

/-- the elements of the 2x2 block with upper left corner (i,i), read in the order of the C expression for `D` -/
def aiBlock (ss i : ℕ) (h : Arr R) : Option (R × R × R × R) := do
  let a ← h.rd (i + i * ss)
  let d ← h.rd (i + 1 + (i + 1) * ss)
  let b ← h.rd (i + (i + 1) * ss)
  let c ← h.rd (i + 1 + i * ss)
  pure (a, b, c, d)

/-- the loop over the diagonal; `i` is one less than the C variable after its increment. `neg a b c d` is the test `D<0`,
`avg a d` is `(a+d)/2`. src/esolver/lis_esolver_ai.c:253-303 -/
def aiValues (small : R → Bool) (neg : R → R → R → R → Bool) (avg : R → R → R) (ss : ℕ) (h : Arr R) :
    ℕ → ℕ → Arr R → Option (Arr R)
  | 0, _, ev => some ev
  | k + 1, i, ev =>
    if i < ss then do
      let sub ← h.rd (i + 1 + i * ss)
      if small sub then do
        let a ← h.rd (i + i * ss)
        let ev ← ev.wr i a
        aiValues small neg avg ss h k (i + 1) ev
      else do
        let q ← aiBlock ss i h
        if neg q.1 q.2.1 q.2.2.1 q.2.2.2 then do
          let ev ← ev.wr i (avg q.1 q.2.2.2)
          let ev ← ev.wr (i + 1) (avg q.1 q.2.2.2)
          aiValues small neg avg ss h k (i + 2) ev
        else do
          let ev ← ev.wr i q.1
          aiValues small neg avg ss h k (i + 1) ev
    else some ev

/-- `lis_eai` with `-rval true`, up to the Ritz values. `qr` as in `liRitz`. src/esolver/lis_esolver_ai.c:149-303 -/
def aiRitz (qr : ℕ → Arr R → Option (Arr R)) (small : R → Bool) (neg : R → R → R → R → Bool) (avg : R → R → R)
    (lt : S → S → Bool) (junk : ℕ → R) (tol : S) (ss : ℕ) (ev : Arr R) : Prog R S (Arr R) := do
  let p ← aiHess lt junk tol ss
  let h ← Prog.ofOption (qr ss p.2)
  Prog.ofOption (aiValues small neg avg ss h ss 0 ev)

end
end Lis
