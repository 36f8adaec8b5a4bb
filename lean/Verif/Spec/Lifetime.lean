import Verif.Model.Lifetime

/-!
# What a user may expect of the memory of a solver handle

The account of a history of calls: what the residual-history pointer of the handle is, what the handle owns, how many
blocks nobody can free any more, or `none` once a block has been freed twice.
-/

namespace Lis

/-- the residual history of the handle: none yet; there is one; the pointer points at freed memory -/
inductive Hist
  | null | valid | dangling
deriving DecidableEq

/-- the account -/
structure Life where
  hist : Hist
  hasD : Bool
  hasAh : Bool
  setup : Bool
  /-- blocks in use that no pointer of the handle reaches -/
  lost : ℕ
  /-- number of times a solver was really started -/
  executed : ℕ

namespace Life

def fresh : Life := ⟨.null, false, false, false, 0, 0⟩

/-- releasing the residual history leaves the pointer behind -/
def release : Hist → Hist
  | .valid => .dangling
  | x => x

/-- the part of a call after the old residual history has been released -/
def rest (r : Run) (l : Life) : Option (Bool × Life) :=
  if !r.rhistOk then some (false, l)
  else if (r.scaling = Scaling.diag ∧ l.hasD = false ∧ r.dOk = false) ∨ (r.scaling = Scaling.block ∧ r.blockOk = false) then
    some (true, { l with lost := l.lost + 3 })
  else
    let l := { l with
      hasD := l.hasD || r.scaling = Scaling.diag, lost := l.lost + if r.scaling = Scaling.block then 1 else 0 }
    if !r.convOk then some (true, { l with lost := l.lost + 1 })
    else if !r.workOk then some (true, { l with lost := l.lost + 1 })
    else some (false, { l with
      hist := .valid, hasAh := l.hasAh || r.useAt, lost := l.lost + if r.useAt ∧ l.hasAh then 1 else 0,
      executed := l.executed + if l.setup then 0 else 1 })

/-- one `lis_solve`: does it return an error code, and the account afterwards -/
def solve (r : Run) (l : Life) : Option (Bool × Life) :=
  if !r.preconOk then some (true, l)
  else if !r.paramOk || !r.xxOk then some (true, { l with lost := l.lost + 1 })
  else if l.hist = .dangling then none
  else rest r { l with hist := release l.hist }

def call (c : SolverCall) (l : Life) : Option (Bool × Life) :=
  match c with
  | .solve r => l.solve r
  | .setup r => do
    let (e, l) ← ({ l with setup := true } : Life).solve r
    pure (e, if e then { l with lost := l.lost + 2 } else l)

def calls : List SolverCall → Life → Option (List Bool × Life)
  | [], l => some ([], l)
  | c :: cs, l => do
    let (e, l) ← l.call c
    let (es, l) ← calls cs l
    pure (e :: es, l)

/-- the account closes: how many blocks are lost for good -/
def close (l : Life) : Option ℕ := if l.hist = .dangling then none else some l.lost

end Life

/-- the call goes through to the end -/
def Run.Completes (r : Run) : Prop :=
  r.preconOk ∧ r.paramOk ∧ r.xxOk ∧ r.rhistOk ∧ (r.scaling = Scaling.diag → r.dOk) ∧ (r.scaling = Scaling.block → r.blockOk) ∧
    r.convOk ∧ r.workOk

end Lis
