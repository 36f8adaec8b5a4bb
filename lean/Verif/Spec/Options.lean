import Verif.Model.Options
import Verif.Spec.Args

/-!
# What the options mean (doc/lis-ug-en.tex:1957-2083)

The settings of a solver by name, and for every documented option what its value does.
-/

namespace Lis

variable {D : Type}

/-- integer settings -/
inductive OKey
  | solver | precon | maxiter | output | restart | ell | scale | fill | m | psolver | pmaxiter | prestart | pell
  | pprecon | islevel | initxZeros | adds | addsIter | precision | useAt | switchMaxiter | saamgUnsym | storage
  | storageBlock | convCond | initShadow | irestart
  deriving DecidableEq

/-- real settings -/
inductive PKey
  | tol | omega | iluRelax | drop | isAlpha | tau | sigma | gamma | ssorOmega | hybridTol | hybridOmega | switchTol
  | rate | tolW | saamgTheta
  deriving DecidableEq

/-- the public constants `LIS_OPTIONS_*`. include/lis.h:71-97 -/
def OKey.idx : OKey → Nat
  | solver => 0 | precon => 1 | maxiter => 2 | output => 3 | restart => 4 | ell => 5 | scale => 6 | fill => 7
  | m => 8 | psolver => 9 | pmaxiter => 10 | prestart => 11 | pell => 12 | pprecon => 13 | islevel => 14
  | initxZeros => 15 | adds => 16 | addsIter => 17 | precision => 18 | useAt => 19 | switchMaxiter => 20
  | saamgUnsym => 21 | storage => 22 | storageBlock => 23 | convCond => 24 | initShadow => 25 | irestart => 26

/-- the public constants `LIS_PARAMS_* - LIS_OPTIONS_LEN`. include/lis.h:115-129 -/
def PKey.idx : PKey → Nat
  | tol => 0 | omega => 1 | iluRelax => 2 | drop => 3 | isAlpha => 4 | tau => 5 | sigma => 6 | gamma => 7
  | ssorOmega => 8 | hybridTol => 9 | hybridOmega => 10 | switchTol => 11 | rate => 12 | tolW => 13
  | saamgTheta => 14

/-- the settings, by name -/
@[ext] structure Settings (D : Type) where
  opt : OKey → Int
  par : PKey → D

/-- the settings a solver object holds -/
def LSolver.view {D : Type} (s : LSolver D) : Settings D := ⟨fun k => s.options.get k.idx, fun k => s.params.get k.idx⟩

/-- both arrays have the declared lengths -/
def LSolver.Sized {D : Type} (s : LSolver D) : Prop := s.options.size = 27 ∧ s.params.size = 15

def Settings.setOpt {D : Type} (s : Settings D) (k : OKey) (v : Int) : Settings D :=
  { s with opt := fun k' => if k' = k then v else s.opt k' }

def Settings.setPar {D : Type} (s : Settings D) (k : PKey) (v : D) : Settings D :=
  { s with par := fun k' => if k' = k then v else s.par k' }

/-- what kind of value an option takes -/
inductive OptKind
  /-- an integer -/
  | int (k : OKey)
  /-- a real number -/
  | real (k : PKey)
  /-- a number with a first digit at most `hi`, or a name; the names have the numbers `base`, `base+1`, … -/
  | choice (k : OKey) (hi : Char) (base : Int) (names : List String)
  /-- as `choice`, and `true` sets the default of `-saamg_theta` for the unsymmetric version -/
  | unsym
  /-- no effect -/
  | nothing
  deriving DecidableEq

/-- the linear solvers, numbered from 1 -/
def docSolvers : List String := ["cg", "bicg", "cgs", "bicgstab", "bicgstabl", "gpbicg", "tfqmr", "orthomin",
  "gmres", "jacobi", "gs", "sor", "bicgsafe", "cr", "bicr", "crs", "bicrstab", "gpbicr", "bicrsafe", "fgmres",
  "idrs", "idr1", "minres", "cocg", "cocr"]

/-- the preconditioners, numbered from 0 (the last two are not in the manual) -/
def docPrecons : List String := ["none", "jacobi", "ilu", "ssor", "hybrid", "is", "sainv", "saamg", "iluc", "ilut",
  "bjacobi", ""]

/-- the options -/
def optDoc : List (String × OptKind) := [
  ("-i", .choice .solver '9' 1 docSolvers),
  ("-p", .choice .precon '9' 0 docPrecons),
  ("-ell", .int .ell), ("-restart", .int .restart), ("-irestart", .int .irestart), ("-omega", .real .omega),
  ("-ilu_fill", .int .fill), ("-ilu_relax", .real .iluRelax), ("-ssor_omega", .real .ssorOmega),
  ("-hybrid_i", .choice .psolver '9' 1 docSolvers), ("-hybrid_p", .choice .pprecon '9' 0 docPrecons),
  ("-hybrid_maxiter", .int .pmaxiter), ("-hybrid_tol", .real .hybridTol), ("-hybrid_omega", .real .hybridOmega),
  ("-hybrid_ell", .int .pell), ("-hybrid_restart", .int .prestart),
  ("-is_alpha", .real .isAlpha), ("-is_m", .int .m), ("-is_level", .int .islevel),
  ("-sainv_drop", .real .drop), ("-iluc_drop", .real .drop), ("-iluc_rate", .real .rate), ("-iluc_gamma", .real .gamma),
  ("-ric2s_tau", .real .tau), ("-ric2s_sigma", .real .sigma), ("-ric2s_gamma", .real .gamma),
  ("-saamg_unsym", .unsym), ("-saamg_theta", .real .saamgTheta),
  ("-adds", .choice .adds '1' 0 ["false", "true"]), ("-adds_iter", .int .addsIter),
  ("-maxiter", .int .maxiter), ("-tol", .real .tol), ("-tol_w", .real .tolW),
  ("-print", .choice .output '3' 0 ["none", "mem", "out", "all"]),
  ("-scale", .choice .scale '2' 0 ["none", "jacobi", "symm_diag"]),
  ("-initx_zeros", .choice .initxZeros '1' 0 ["false", "true"]),
  ("-conv_cond", .choice .convCond '3' 0 ["nrm2_r", "nrm2_b", "nrm1_b"]),
  ("-storage", .choice .storage '9' 1 ["csr", "csc", "msr", "dia", "ell", "jad", "bsr", "bsc", "vbr", "coo", "dns"]),
  ("-storage_block", .int .storageBlock),
  ("-f", .choice .precision '1' 0 ["double", "quad", "switch"]),
  ("-use_at", .choice .useAt '1' 0 ["false", "true"]),
  ("-switch_tol", .real .switchTol), ("-switch_maxiter", .int .switchMaxiter),
  ("-h", .nothing), ("-ver", .nothing)]

/-- the kind of an option name -/
def optKind (name : List Char) : Option OptKind := (optDoc.find? fun p => p.1.toList = name).map (·.2)

/-- the number a choice value stands for, `none` for a value that is neither; `old` when the number cannot
be read -/
def choiceVal (v : List Char) (hi : Char) (base : Int) (names : List String) : Option Int :=
  if '0' ≤ v.headD nul ∧ v.headD nul ≤ hi then scanInt v
  else (names.findIdx? fun nm => nm.toList = v).map fun i => (i : Int) + base

/-- the settings after one option; `none` when the value is rejected. A number that cannot be read leaves an
integer setting alone and puts `dv` (an indeterminate value) into a real one. -/
def OptKind.set {D : Type} (theta : D) (scanD : List Char → Option D) (dv : D) (v : List Char) (s : Settings D) :
    OptKind → Option (Settings D)
  | .int k => some (match scanInt v with | some i => s.setOpt k i | none => s)
  | .real k => some (s.setPar k ((scanD v).getD dv))
  | .choice k hi base names => (choiceVal v hi base names).map (s.setOpt k)
  | .unsym => (choiceVal v '1' 0 ["false", "true"]).map fun i =>
      if i = 0 then s.setOpt .saamgUnsym i else (s.setOpt .saamgUnsym i).setPar .saamgTheta theta
  | .nothing => some s

/-- the settings after one name/value pair; unknown names change nothing -/
def setPair {D : Type} (theta : D) (scanD : List Char → Option D) (dv : D) (p : List Char × List Char) (s : Settings D) :
    Option (Settings D) :=
  match optKind p.1 with
  | some k => k.set theta scanD dv p.2 s
  | none => some s

/-- the settings after a list of pairs, left to right, and whether all of them were accepted; nothing after a
rejected pair is looked at -/
def setPairs {D : Type} (theta : D) (scanD : List Char → Option D) (dv : D) :
    List (List Char × List Char) → Settings D → Bool × Settings D
  | [], s => (true, s)
  | p :: r, s => match setPair theta scanD dv p s with
    | some s' => setPairs theta scanD dv r s'
    | none => (false, s)

/-- does an option of this kind set the integer setting `k`? -/
def OptKind.setsOpt (k : OKey) : OptKind → Bool
  | .int k' => k' = k
  | .choice k' _ _ _ => k' = k
  | .unsym => k = .saamgUnsym
  | _ => false

/-- does an option of this kind set the real setting `k`? -/
def OptKind.setsPar (k : PKey) : OptKind → Bool
  | .real k' => k' = k
  | .unsym => k = .saamgTheta
  | _ => false

/-- the defaults of the manual (those in brackets) -/
def docDefault (lit : ℚ → D) : Settings D where
  opt
    | .solver => 2 | .precon => 0 | .maxiter => 1000 | .output => 0 | .restart => 40 | .ell => 2 | .scale => 0
    | .fill => 0 | .m => 3 | .psolver => 12 | .pmaxiter => 25 | .prestart => 40 | .pell => 2 | .pprecon => 0
    | .islevel => 1 | .initxZeros => 1 | .adds => 0 | .addsIter => 1 | .precision => 0 | .useAt => 0
    | .switchMaxiter => -1 | .saamgUnsym => 0 | .storage => 0 | .storageBlock => 2 | .convCond => 0
    | .initShadow => 0 | .irestart => 2
  par
    | .tol => lit (1 / 1000000000000) | .omega => lit (19 / 10) | .iluRelax => lit 1 | .drop => lit (5 / 100)
    | .isAlpha => lit 1 | .tau => lit (5 / 100) | .sigma => lit 2 | .gamma => lit 1 | .ssorOmega => lit 1
    | .hybridTol => lit (1 / 1000) | .hybridOmega => lit (15 / 10) | .switchTol => lit (1 / 1000000000000)
    | .rate => lit 5 | .tolW => lit 1 | .saamgTheta => lit (5 / 100)

end Lis
