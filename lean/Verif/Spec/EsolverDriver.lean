import Verif.Model.EsolverDriver
import Verif.Spec.Options

/-!
# What the eigensolver options and `lis_esolve` are documented to do
-/

namespace Lis

/-- the integer settings -/
inductive EKey
  | esolver | emaxiter | ss | mode | eprint | initOnes | inner | ginner | estorage | eblock | eprec | rval
  deriving DecidableEq

/-- the real settings -/
inductive EPar
  | etol | shift | shiftIm
  deriving DecidableEq

/-- where they are kept. include/lis.h:99-112, 131-134 -/
def EKey.idx : EKey → ℕ
  | .esolver => 0 | .emaxiter => 1 | .ss => 2 | .mode => 3 | .eprint => 4 | .initOnes => 5 | .inner => 6 | .ginner => 7
  | .estorage => 8 | .eblock => 9 | .eprec => 10 | .rval => 12

def EPar.idx : EPar → ℕ
  | .etol => 0 | .shift => 1 | .shiftIm => 2

/-- the settings of an eigensolver -/
@[ext] structure ESettings (D : Type) where
  opt : EKey → Int
  par : EPar → D

def ESettings.setOpt {D : Type} (s : ESettings D) (k : EKey) (v : Int) : ESettings D :=
  { s with opt := fun k' => if k' = k then v else s.opt k' }

def ESettings.setPar {D : Type} (s : ESettings D) (k : EPar) (v : D) : ESettings D :=
  { s with par := fun k' => if k' = k then v else s.par k' }

/-- an integer, a real number, or one of a list of names (numbered from `base`) or a number starting with a digit up to `hi` -/
inductive EKind
  | int (k : EKey)
  | real (k : EPar)
  | choice (k : EKey) (hi : Char) (base : Int) (names : List String)

/-- the options of the manual -/
def eoptDoc : List (String × EKind) := [
  ("-e", .choice .esolver '9' 1 ["pi", "ii", "rqi", "cg", "cr", "si", "li", "ai", "gpi", "gii", "grqi", "gcg", "gcr", "gsi",
    "gli", "gai"]),
  ("-ie", .choice .inner '9' 1 ["pi", "ii", "rqi", "cg", "cr", "si", "li", "ai", "gpi", "gii", "grqi", "gcg", "gcr", "gsi",
    "gli", "gai"]),
  ("-ige", .choice .ginner '9' 1 ["pi", "ii", "rqi", "cg", "cr", "si", "li", "ai", "gpi", "gii", "grqi", "gcg", "gcr", "gsi",
    "gli", "gai"]),
  ("-emaxiter", .int .emaxiter),
  ("-etol", .real .etol),
  ("-eprint", .choice .eprint '3' 0 ["none", "mem", "out", "all"]),
  ("-ss", .int .ss),
  ("-m", .int .mode),
  ("-shift", .real .shift),
  ("-shift_im", .real .shiftIm),
  ("-initx_ones", .choice .initOnes '1' 0 ["false", "true"]),
  ("-estorage", .choice .estorage '9' 1 ["csr", "csc", "msr", "dia", "ell", "jad", "bsr", "bsc", "vbr", "coo", "dns"]),
  ("-estorage_block", .int .eblock),
  ("-ef", .choice .eprec '1' 0 ["double", "quad", "switch"]),
  ("-rval", .choice .rval '1' 0 ["false", "true"])]

/-- the settings after one option; `none` when the value is rejected. A number that cannot be read leaves an integer setting
alone and puts `dv` (an indeterminate value) into a real one. -/
def EKind.set {D : Type} (scanD : List Char → Option D) (dv : D) (v : List Char) (s : ESettings D) :
    EKind → Option (ESettings D)
  | .int k => some (match scanInt v with | some i => s.setOpt k i | none => s)
  | .real k => some (s.setPar k ((scanD v).getD dv))
  | .choice k hi base names => (choiceVal v hi base names).map (s.setOpt k)

/-- what an option name means -/
def eoptKind (name : List Char) : Option EKind := (eoptDoc.find? fun p => p.1.toList = name).map (·.2)

/-- one name/value pair; unknown names change nothing -/
def esetPair {D : Type} (scanD : List Char → Option D) (dv : D) (p : List Char × List Char) (s : ESettings D) :
    Option (ESettings D) :=
  match eoptKind p.1 with
  | some k => k.set scanD dv p.2 s
  | none => some s

/-- the settings after a list of pairs, left to right, and whether all of them were accepted; nothing after a rejected pair is
looked at -/
def esetPairs {D : Type} (scanD : List Char → Option D) (dv : D) :
    List (List Char × List Char) → ESettings D → Bool × ESettings D
  | [], s => (true, s)
  | p :: r, s => match esetPair scanD dv p s with
    | some s => esetPairs scanD dv r s
    | none => (false, s)

/-- the defaults of the manual: CR, at most 1000 iterations, tolerance 1e-12, one eigenpair, start with ones, no shift -/
def edocDefault {D : Type} (lit : ℚ → D) : ESettings D where
  opt := fun k => match k with
    | .esolver => 5 | .emaxiter => 1000 | .ss => 1 | .mode => 0 | .eprint => 0 | .initOnes => 1 | .inner => 2 | .ginner => 10
    | .estorage => 0 | .eblock => 2 | .eprec => 0 | .rval => 0
  par := fun k => match k with
    | .etol => lit (1 / 1000000000000) | .shift => lit 0 | .shiftIm => lit 0

/-- the settings stored in a handle -/
def LSolver.eview {D : Type} (s : LSolver D) : ESettings D :=
  ⟨fun k => s.options.get k.idx, fun k => s.params.get k.idx⟩

/-- the arrays have the size of the structure. include/lis.h:770-771 -/
def LSolver.ESized {D : Type} (s : LSolver D) : Prop := s.options.size = 13 ∧ s.params.size = 3

/-- Subspace, Lanczos, Arnoldi and their generalized forms -/
def isSubspace (nesolver : Int) : Prop := nesolver ∈ ([6, 7, 8, 14, 15, 16] : List Int)

instance (n : Int) : Decidable (isSubspace n) := by unfold isSubspace; infer_instance

/-- the arguments and settings `lis_esolve`, `lis_gesolve` are documented to accept -/
structure EValid (A : GArg) (B : Option GArg) (xn nesolver ss mode : Int) : Prop where
  chkA : A.chk = .success
  chkB : ∀ b, B = some b → b.chk = .success
  nA : A.n = xn
  nB : ∀ b, B = some b → b.n = xn
  gnA : 0 < A.gn
  gnB : ∀ b, B = some b → 0 < b.gn
  lo : 1 ≤ nesolver
  hi : nesolver ≤ 16
  sub : isSubspace nesolver → 0 ≤ ss ∧ ss ≤ A.gn ∧ mode < ss

/-- a solver keeps the arrays it is given -/
def KeepsSizes {R S V : Type} (exec : Int → V → EArrs R S → Option (Err × V × EArrs R S)) : Prop :=
  ∀ k x a, ∃ e y b, exec k x a = some (e, y, b) ∧ b.evalue.size = a.evalue.size ∧ b.resid.size = a.resid.size ∧
    b.iter.size = a.iter.size ∧ b.iter2.size = a.iter2.size ∧ b.rhistory.size = a.rhistory.size

end Lis
