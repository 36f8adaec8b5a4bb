import Verif.Model.Machine
import Verif.Model.Solver
import Verif.Model.Options

/-!
# Hybrid preconditioner, src/precon/lis_precon_hybrid.c

`M⁻¹ b` is the `x` an inner solver (`-hybrid_i`, default SOR) computes for `A x = b`.  The inner solver object `psolver`
lives in `precon->solver`: its vector `x`, its work vectors and its `rhistory` keep their contents from one application to
the next.  Double precision.
-/

namespace Lis
variable {R S : Type}

/-- `if(solver2->options[LIS_OPTIONS_INITGUESS_ZEROS]) lis_vector_set_all(0,xx); else lis_vector_copy(B,xx);`.
src/precon/lis_precon_hybrid.c:184-216 -/
def hybridStart [Zero R] (initZero : Bool) (g : Vecs R) : Option (Vecs R) :=
  if initZero then (vectorSetAll 0 hX g).map Prod.snd else (vectorCopy hB hX g).map Prod.snd

/-- `lis_psolve_hybrid`: `p` is `lis_solver_execute[nsolver]`, `K` its product and its preconditioner (`-hybrid_p`), `st`
the vectors and history of the inner solver.  `solver2->b` is the caller's vector `B` itself; the status returned by the
inner solver is not looked at.  Returns the caller's vectors and what the inner solver keeps.
src/precon/lis_precon_hybrid.c:160-234 -/
def psolveHybrid [Zero R] [Add R] [Mul R] [Star R] [Zero S] [Add S] (K : AKit R S) (p : Prog R S (Out S)) (initZero : Bool)
    (st : ASt R S) (b x : ℕ) (h : Vecs R) : Option (Vecs R × ASt R S) := do
  let g ← hybridStart initZero fun v => if v = hB then h b else st.h v
  let (_, s) ← p.exec K ⟨g, st.hist⟩
  -- `lis_vector_copy(solver2->x,X)`
  let c ← (vectorCopy 0 1 fun v => if v = 0 then s.h hX else h x).map Prod.snd
  pure (fun v => if v = x then c 1 else if v = b then s.h hB else h v, s)

/-- `lis_psolveh_hybrid`: the same text between `LIS_MATVEC = lis_matvech; LIS_MATVECH = lis_matvec;` and the reverse
assignments.  No solver reads these two global pointers (the solvers call `lis_matvec` and `lis_matvech` by name), so the
inner solver runs as in `lis_psolve_hybrid`.  src/precon/lis_precon_hybrid.c:238-317 -/
def psolvehHybrid [Zero R] [Add R] [Mul R] [Star R] [Zero S] [Add S] (K : AKit R S) (p : Prog R S (Out S)) (initZero : Bool)
    (st : ASt R S) (b x : ℕ) (h : Vecs R) : Option (Vecs R × ASt R S) := psolveHybrid K p initZero st b x h

/-! ### a solver whose preconditioner keeps a state `σ` -/

section
variable {σ : Type} [Zero R] [Add R] [Mul R] [Star R] [Zero S] [Add S]

/-- one call; `lis_psolve` and `lis_psolveh` work on the state of the preconditioner -/
def VOp.execP (K : AKit R S) (ps psh : σ → ℕ → ℕ → Vecs R → Option (Vecs R × σ)) : VOp R → Vecs R → σ → Option (Vecs R × σ)
  | psolve x y _, h, t => ps t x y h
  | psolveh x y _, h, t => psh t x y h
  | o, h, t => (o.exec K h).map fun h => (h, t)

/-- `Prog.exec` with a preconditioner that keeps a state -/
def Prog.execP (K : AKit R S) (ps psh : σ → ℕ → ℕ → Vecs R → Option (Vecs R × σ)) {α : Type} :
    Prog R S α → ASt R S → σ → Option (α × ASt R S × σ)
  | .ret a, s, t => some (a, s, t)
  | .vop o k, s, t => (o.execP K ps psh s.h t).bind fun r => k.execP K ps psh ⟨r.1, s.hist⟩ r.2
  | .red o k, s, t => (o.exec K s.h).bind fun r => (k r).execP K ps psh s t
  | .norm o k, s, t => (o.exec K s.h).bind fun r => (k r).execP K ps psh s t
  | .hist i v k, s, t => (s.hist.wr i v).bind fun a => k.execP K ps psh ⟨s.h, a⟩ t
  | .undef, _, _ => none
end

/-! ### the options of the inner solver -/

/-- the assignments to `psolver->params` and `psolver->options` in `lis_precon_create_hybrid`, after `lis_solver_create` has
set the defaults.  src/precon/lis_precon_hybrid.c:76-92 -/
def hybridOptions {D : Type} (lit : ℚ → D) (rc : Err) (s : LSolver D) : Option (LSolver D) := do
  let q := solverInit lit rc
  let presid ← s.params.rd 9
  let params ← q.params.wr 0 presid
  let pomega ← s.params.rd 10
  let params ← params.wr 8 pomega
  let v ← s.options.rd 10
  let options ← q.options.wr 2 v
  let v ← s.options.rd 12
  let options ← options.wr 5 v
  let v ← s.options.rd 11
  let options ← options.wr 4 v
  let options ← options.wr 3 0
  let v ← s.options.rd 9
  let options ← options.wr 0 v
  let v ← s.options.rd 13
  let options ← options.wr 1 v
  let v ← s.options.rd 15
  let options ← options.wr 15 v
  let v ← s.options.rd 18
  let options ← options.wr 18 v
  pure { q with options := options, params := params }

end Lis
