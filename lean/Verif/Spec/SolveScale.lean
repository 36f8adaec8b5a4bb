import Verif.Model.SolveScale
import Verif.Spec.Mul
import Verif.Props.CsrOps

/-!
# What a program that solves repeatedly with scaling means, and the protocol it has to follow
-/

namespace Lis
variable {R : Type}

/-- The data the program means: the matrix and the right-hand sides it stored last. -/
structure Intent (R : Type) where
  A : Csr R
  b : ℕ → Arr R

/-- Storing new values changes what is meant; nothing else does. -/
def Intent.after (I : Intent R) : ScaleOp R → Intent R
  | .fill k v => { I with b := fun j => if j = k then v else I.b j }
  | .fillA A => { I with A := A }
  | _ => I

/-- The system an operation is meant to solve: none unless it is a solve. -/
def Intent.asked (I : Intent R) : ScaleOp R → List (Csr R × Arr R)
  | .solve k _ => [(I.A, I.b k)]
  | _ => []

/-- The systems the solves of a history are meant to solve: matrix and right-hand side. -/
def Intent.systems : List (ScaleOp R) → Intent R → List (Csr R × Arr R)
  | [], _ => []
  | op :: ops, I => I.asked op ++ Intent.systems ops (I.after op)

/-- what an object holds: the values the program stored, those values scaled, or neither -/
inductive Held
  | own | scaled | lost
  deriving DecidableEq

/-- Bookkeeping of a program: for the matrix and each right-hand side, whether it is marked as scaled and what it
holds. -/
structure Book where
  aMark : Bool
  aHeld : Held
  mark : ℕ → Bool
  held : ℕ → Held

/-- Everything unmarked and holding the program's values. -/
def Book.start : Book := ⟨false, .own, fun _ => false, fun _ => .own⟩

/-- A solve is proper when matrix and right-hand side both hold the program's values and the matrix is unmarked, or when
the matrix is scaled and marked, and the right-hand side is either the program's and unmarked or scaled and marked. -/
def Book.Proper (B : Book) : ScaleOp R → Prop
  | .solve k _ => (B.aMark = false ∧ B.aHeld = .own ∧ B.held k = .own) ∨
      (B.aMark = true ∧ B.aHeld = .scaled ∧
        (B.mark k = false ∧ B.held k = .own ∨ B.mark k = true ∧ B.held k = .scaled))
  | _ => True

/-- The bookkeeping of each operation. A solve with an unmarked matrix scales matrix and right-hand side and marks both;
right-hand sides scaled before that no longer fit. A solve with a marked matrix and an unmarked right-hand side scales
the right-hand side *without marking it*. -/
def Book.after (B : Book) : ScaleOp R → Book
  | .fill k _ => { B with held := fun j => if j = k then .own else B.held j }
  | .resetB k => { B with mark := fun j => if j = k then false else B.mark j }
  | .fillA _ => { B with aHeld := .own }
  | .resetA => { B with aMark := false }
  | .solve k _ =>
    if B.aMark = false then
      { aMark := true, aHeld := .scaled
        mark := fun j => if j = k then true else B.mark j
        held := fun j => if j = k then .scaled else if B.held j = .own then .own else .lost }
    else if B.mark k = false then { B with held := fun j => if j = k then .scaled else B.held j }
    else B

/-- every operation of the history is proper when it happens -/
def Book.Follows : List (ScaleOp R) → Book → Prop
  | [], _ => True
  | op :: ops, B => B.Proper op ∧ Book.Follows ops (B.after op)

/-- a square matrix of size `n` whose rows all store their diagonal element exactly once, and not as zero -/
structure Csr.Scalable [AddCommMonoid R] (n : ℕ) (A : Csr R) : Prop where
  wf : A.WF
  hn : A.n = n
  hnp : A.np = n
  diag : ∀ i, i < n → A.DiagOnce i
  nz : ∀ i, i < n → A.entry i i ≠ 0

/-- sizes of the data of an operation -/
def ScaleOp.Good [AddCommMonoid R] (n : ℕ) : ScaleOp R → Prop
  | .fill _ v => n ≤ v.size
  | .fillA A => A.Scalable n
  | .solve _ x => n ≤ x.size
  | _ => True

/-- A linear solver that finds a solution whenever there is one. -/
structure SolvesAll [NonUnitalNonAssocSemiring R] (exec : Csr R → Arr R → Arr R → Arr R) : Prop where
  size : ∀ A b x, A.n ≤ (exec A b x).size
  solves : ∀ (A : Csr R) b x, (∃ y, IsMul A.n A.np A.entry y b.get) →
    IsMul A.n A.np A.entry (exec A b x).get b.get

end Lis
