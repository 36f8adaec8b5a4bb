import Verif.Model.EsolverLife
import Verif.Spec.Lifetime

/-!
# What a user may expect of the memory of an eigensolver handle

The account of a history of calls: whether the arrays of the handle are there, how many blocks it owns, how many nobody can free
any more; `none` once a block has been freed twice or an array is read outside its bounds.
-/

namespace Lis

structure ELife where
  /-- the arrays (eigenvalues, residuals, iterations, history): none yet; there; freed although the handle still points there -/
  arr : Hist
  /-- vectors stored in the array of eigenvectors, and the subspace size that array was made for -/
  vecs : ℕ
  cap : ℕ
  /-- blocks of the work vectors -/
  work : ℕ
  /-- the options `-e si|li|ai` and `-ss` -/
  sub : Bool
  ss : ℕ
  /-- blocks in use that no pointer of the handle reaches -/
  lost : ℕ

namespace ELife

def fresh : ELife := ⟨.null, 0, 0, 0, false, 1, 0⟩

/-- how many blocks of a call are lost when this allocation fails -/
def lostAt : EStep → ℕ
  | .evalue => 0 | .resid => 1 | .iter => 2 | .iter2 => 3 | .xx => 4 | .evector => 5 | .rhistory => 5 | .work => 0

/-- one `lis_esolve`: does it return an error code, and the account afterwards -/
def run (r : ERun) (l : ELife) : Option (Bool × ELife) :=
  if !r.paramOk then some (true, l)
  else if l.arr = .dangling then none
  else match r.fail with
    | none => some (false, { l with
        arr := .valid, vecs := r.nvec, cap := l.ss, work := 1 + r.nwork, lost := l.lost + l.vecs + l.work })
    | some .work => some (true, { l with arr := .valid, vecs := 0, cap := l.ss, lost := l.lost + l.vecs })
    | some s => some (decide (s = .xx), { l with arr := Life.release l.arr, lost := l.lost + lostAt s })

def call (c : EsolverCall) (l : ELife) : Option (Bool × ELife) :=
  match c with
  | .opt sub ss => some (false, { l with sub := sub, ss := ss })
  | .run r => l.run r

def calls : List EsolverCall → ELife → Option (List Bool × ELife)
  | [], l => some ([], l)
  | c :: cs, l => do
    let (e, l) ← l.call c
    let (es, l) ← calls cs l
    pure (e :: es, l)

/-- the account closes: how many blocks are lost for good. Only `-e si|li|ai` make `lis_esolver_destroy` look at the stored
vectors, and then it looks at `ss+2` of them -/
def close (l : ELife) : Option ℕ :=
  match l.arr with
  | .dangling => none
  | .null => some l.lost
  | .valid =>
    if l.sub then if l.ss ≤ l.cap then some (l.lost + (l.vecs - (l.ss + 2))) else none
    else some (l.lost + l.vecs)

end ELife

/-- the solver stores no more vectors than `ss`, and fresh memory does not contain the address of a block -/
def ERun.Sane (ss : ℕ) (r : ERun) : Prop := r.nvec ≤ ss ∧ r.junk = List.replicate (ss + 2) none

/-- every run of the history is sane for the subspace size set at that time -/
def SaneCalls : ℕ → List EsolverCall → Prop
  | _, [] => True
  | _, .opt _ ss :: cs => SaneCalls ss cs
  | ss, .run r :: cs => r.Sane ss ∧ SaneCalls ss cs

end Lis
