import Verif.Model.Args
import Verif.Model.Assembly
import Mathlib.Data.Rat.Defs

/-!
# Solver options (src/solver/lis_solver.c)

Strings are lists of characters.  `D` is the type of the real parameters, `lit` the value of a decimal
literal, `scanD` is `sscanf(…,"%lg",…)` (`none` when it converts nothing).
-/

namespace Lis

variable {D : Type}

/-- the option part of `struct LIS_SOLVER_STRUCT`. include/lis.h:741-743 -/
structure LSolver (D : Type) where
  options : Arr Int
  params : Arr D
  retcode : Err

/-- value of a run of decimal digits -/
def digits (acc : Int) : List Char → Int
  | [] => acc
  | c :: l => if '0' ≤ c ∧ c ≤ '9' then digits (acc * 10 + (c.toNat - '0'.toNat : Nat)) l else acc

/-- `sscanf(s,"%d",&v)` for a text that does not start with a blank (option values never do, they are
words): an optional sign, then at least one digit; `none` leaves `v` alone. Overflow is not modelled. -/
def scanInt (s : List Char) : Option Int :=
  let isd (r : List Char) : Bool := match r with | c :: _ => decide ('0' ≤ c ∧ c ≤ '9') | [] => false
  match s with
  | '-' :: r => if isd r then some (-(digits 0 r)) else none
  | '+' :: r => if isd r then some (digits 0 r) else none
  | r => if isd r then some (digits 0 r) else none

/-- `sscanf(argv,"%d",&solver->options[k])`. src/solver/lis_solver.c:1259, 1226 -/
def scanInto (argv : List Char) (k : Nat) (s : LSolver D) : Option (LSolver D) := do
  let old ← s.options.rd k
  let o ← s.options.wr k ((scanInt argv).getD old)
  pure { s with options := o }

/-- first index whose name equals `argv`: the `for(i…) if( strcmp(argv,name[i])==0 ) … else if( i==LEN-1 )`
loops; `none` is the return of `LIS_ERR_ILL_ARG`. src/solver/lis_solver.c:1263-1276 -/
def nameLoop (argv : List Char) : Nat → List String → Option Nat
  | _, [] => none
  | i, nm :: r => if argv = nm.toList then some i else nameLoop argv (i + 1) r

/-- the common shape of `lis_solver_set_option_{solver,psolver,precon,pprecon,print,scale,truefalse,precision,
storage,conv_cond}`: a value whose first character is in `'0'..hi` is scanned as a number, otherwise it must
be one of the names, and name number `i` stores `i + base`.  `argv[0]` of the empty string is the
terminator.  src/solver/lis_solver.c:1247-1640 -/
def setEnum (argv : List Char) (k : Nat) (hi : Char) (names : List String) (base : Int) (s : LSolver D) :
    Option (Err × LSolver D) :=
  let c := argv.headD nul
  if '0' ≤ c ∧ c ≤ hi then do
    let s ← scanInto argv k s
    pure (Err.success, s)
  else match nameLoop argv 0 names with
    | some i => do
      let o ← s.options.wr k (i + base)
      pure (Err.success, { s with options := o })
    | none => pure (Err.illArg, s)

/-- src/solver/lis_solver.c:199 -/
def solverNames : List String := ["cg", "bicg", "cgs", "bicgstab", "bicgstabl", "gpbicg", "tfqmr", "orthomin",
  "gmres", "jacobi", "gs", "sor", "bicgsafe", "cr", "bicr", "crs", "bicrstab", "gpbicr", "bicrsafe", "fgmres",
  "idrs", "idr1", "minres", "cocg", "cocr"]
/-- src/solver/lis_solver.c:200 -/
def preconNames : List String := ["none", "jacobi", "ilu", "ssor", "hybrid", "is", "sainv", "saamg", "iluc",
  "ilut", "bjacobi", ""]
/-- src/solver/lis_solver.c:201 -/
def storageNames : List String :=
  ["csr", "csc", "msr", "dia", "ell", "jad", "bsr", "bsc", "vbr", "coo", "dns"]
/-- src/solver/lis_solver.c:202 -/
def printNames : List String := ["none", "mem", "out", "all"]
/-- src/solver/lis_solver.c:203 -/
def scaleNames : List String := ["none", "jacobi", "symm_diag"]
/-- src/solver/lis_solver.c:204 -/
def truefalseNames : List String := ["false", "true"]
/-- src/solver/lis_solver.c:205 -/
def precisionNames : List String := ["double", "quad", "switch"]
/-- src/solver/lis_solver.c:206 -/
def convCondNames : List String := ["nrm2_r", "nrm2_b", "nrm1_b"]

/-- `lis_solver_set_option_precon`, `…_pprecon`: after the built-in names the code searches the names of the
registered user-defined preconditioners (`reg`, numbered from `LIS_PRECON_TYPE_USERDEF` = 12); the last
iteration of the first search has already returned. src/solver/lis_solver.c:1318-1411 -/
def setPrecon (reg : List (List Char)) (argv : List Char) (k : Nat) (s : LSolver D) : Option (Err × LSolver D) :=
  let c := argv.headD nul
  if '0' ≤ c ∧ c ≤ '9' then do
    let s ← scanInto argv k s
    pure (Err.success, s)
  else
    let rec first (i : Nat) : List String → Option (Err × LSolver D) ⊕ Unit
      | [] => .inr ()
      | nm :: r =>
        if argv = nm.toList then .inl (do
          let o ← s.options.wr k i
          pure (Err.success, { s with options := o }))
        else if i = 12 - 1 then .inl (pure (Err.illArg, s))
        else first (i + 1) r
    match first 0 preconNames with
    | .inl r => r
    | .inr () =>
      let rec second (i : Nat) : List (List Char) → Option (Err × LSolver D)
        | [] => pure (Err.success, s)
        | nm :: r =>
          if argv = nm then do
            let o ← s.options.wr k (i + 12)
            pure (Err.success, { s with options := o })
          else second (i + 1) r
      second 0 reg

/-- `LIS_SOLVER_OPTNAME`. src/solver/lis_solver.c:175-186 -/
def optName : List String := [
  "-maxiter", "-tol", "-print", "-scale", "-ssor_omega",
  "-ilu_fill", "-ilu_relax", "-is_alpha", "-is_level", "-is_m",
  "-hybrid_maxiter", "-hybrid_ell", "-hybrid_restart", "-hybrid_tol", "-hybrid_omega",
  "-hybrid_i", "-sainv_drop", "-ric2s_tau", "-ric2s_sigma", "-ric2s_gamma",
  "-restart", "-ell", "-omega", "-i", "-p",
  "-f", "-h", "-ver", "-hybrid_p", "-initx_zeros",
  "-adds", "-adds_iter", "-f", "-use_at", "-switch_tol",
  "-switch_maxiter", "-saamg_unsym", "-iluc_drop", "-iluc_gamma", "-iluc_rate",
  "-storage", "-storage_block", "-conv_cond", "-tol_w", "-saamg_theta", "-irestart"]

/-- `LIS_SOLVER_OPTACT` with the constants of include/lis.h:70-138. src/solver/lis_solver.c:187-198 -/
def optAct : List Int := [
  2, 27 + 0, 3, 6, 27 + 8,
  7, 27 + 2, 27 + 4, 14, 8,
  10, 12, 11, 27 + 9, 27 + 10,
  9, 27 + 3, 27 + 5, 27 + 6, 27 + 7,
  4, 5, 27 + 1, 0, 1,
  -1, -2, -3, 13, 15,
  16, 17, 18, 19, 27 + 11,
  20, 21, 27 + 3, 27 + 7, 27 + 12,
  22, 23, 24, 27 + 13, 27 + 14, 26]

/-- the `switch` on the action. `dv` is the content of the uninitialised `double_value`.
src/solver/lis_solver.c:1168-1231 -/
def optSwitch (lit : ℚ → D) (scanD : List Char → Option D) (dv : D) (reg : List (List Char)) (act : Int)
    (arg2 : List Char) (s : LSolver D) : Option (Err × LSolver D) :=
  match act with
  | -1 => pure (Err.success, s)
  | -2 => pure (Err.success, s)
  | -3 => pure (Err.success, s)
  | 0 => setEnum arg2 0 '9' solverNames 1 s
  | 1 => setPrecon reg arg2 1 s
  | 6 => setEnum arg2 6 '2' scaleNames 0 s
  | 3 => setEnum arg2 3 '3' printNames 0 s
  | 9 => setEnum arg2 9 '9' solverNames 1 s
  | 13 => setPrecon reg arg2 13 s
  | 15 => setEnum arg2 15 '1' truefalseNames 0 s
  | 16 => setEnum arg2 16 '1' truefalseNames 0 s
  | 18 => setEnum arg2 18 '1' precisionNames 0 s
  | 19 => setEnum arg2 19 '1' truefalseNames 0 s
  | 21 => do
    let (err, s) ← setEnum arg2 21 '1' truefalseNames 0 s
    let v ← s.options.rd 21
    if v ≠ 0 then do
      let p ← s.params.wr 14 (lit (12 / 100))
      pure (err, { s with params := p })
    else pure (err, s)
  | 22 => setEnum arg2 22 '9' storageNames 1 s
  | 24 => setEnum arg2 24 '3' convCondNames 0 s
  | a =>
    if a < 27 then do
      let s ← scanInto arg2 a.toNat s
      pure (Err.success, s)
    else do
      let p ← s.params.wr (a - 27).toNat ((scanD arg2).getD dv)
      pure (Err.success, { s with params := p })

/-- the loop over the table. On error `lis_solver_work_destroy` frees the work vectors (not modelled) and the
code is stored in `retcode`. src/solver/lis_solver.c:1161-1243 -/
def optLoop (lit : ℚ → D) (scanD : List Char → Option D) (dv : D) (reg : List (List Char))
    (arg1 arg2 : List Char) : List (String × Int) → LSolver D → Option (Err × LSolver D)
  | [], s => pure (Err.success, s)
  | (nm, act) :: r, s => do
    let (err, s) ← if arg1 = nm.toList then optSwitch lit scanD dv reg act arg2 s else pure (Err.success, s)
    if err ≠ Err.success then pure (err, { s with retcode := err })
    else optLoop lit scanD dv reg arg1 arg2 r s

/-- `lis_solver_set_option2`. src/solver/lis_solver.c:1151-1244 -/
def setOption2 (lit : ℚ → D) (scanD : List Char → Option D) (dv : D) (reg : List (List Char))
    (arg1 arg2 : List Char) (s : LSolver D) : Option (Err × LSolver D) :=
  optLoop lit scanD dv reg arg1 arg2 (optName.zip optAct) s

/-- the `while( p!=args )` loop of `lis_solver_set_option` and `lis_solver_set_optionC`: stop at the first
error. src/solver/lis_solver.c:1103-1115, 1131-1143 -/
def setOptionArgs (lit : ℚ → D) (scanD : List Char → Option D) (dv : D) (reg : List (List Char)) :
    List (List Char × List Char) → LSolver D → Option (Err × LSolver D)
  | [], s => pure (Err.success, s)
  | (a, b) :: r, s => do
    let (err, s) ← setOption2 lit scanD dv reg a b s
    if err ≠ Err.success then pure (err, { s with retcode := err })
    else setOptionArgs lit scanD dv reg r s

/-- `lis_solver_set_option`. src/solver/lis_solver.c:1122-1147 -/
def setOption (lit : ℚ → D) (scanD : List Char → Option D) (dv : D) (reg : List (List Char)) (junk : Nat → Char)
    (text : List Char) (s : LSolver D) : Option (Err × LSolver D) := do
  let args ← text2args junk text
  setOptionArgs lit scanD dv reg args s

/-- the option part of `lis_solver_init`; `retcode` is not initialised there.
src/solver/lis_solver.c:219-294 -/
def solverInit (lit : ℚ → D) (rc : Err) : LSolver D where
  options := Arr.ofList [2, 0, 1000, 0, 40, 2, 0, 0, 3, 12, 25, 40, 2, 0, 1, 1, 0, 1, 0, 0, -1, 0, 0, 2, 0, 0, 2]
  params := ⟨15, fun i => lit ([1 / 1000000000000, 19 / 10, 1, 5 / 100, 1, 5 / 100, 2, 1, 1, 1 / 1000, 15 / 10,
    1 / 1000000000000, 5, 1, 5 / 100].getD i 0)⟩
  retcode := rc

/-- `lis_solver_execute_conv_cond[nsolver]!=NULL`. src/solver/lis_solver.c:107-118 -/
def convCondTable : Arr Bool := Arr.ofList [false,
  true, true, true, true, true, true, false, true, false, false, false, false, true, true, true,
  true, true, true, true, false, true, true, false, true, true]

/-- `lis_solver_check_params[nsolver](solver)`: only these solvers check anything. `omegaOk w` is
`!(fabs(w)<=0 || fabs(w)>=2)`. src/solver/lis_solver.c:68-79; lis_solver_bicgstabl.c:58-72,
lis_solver_orthomin.c:58-72, lis_solver_gmres.c:59-73, 1052-1066, lis_solver_sor.c:59-73 -/
def checkParams (omegaOk : D → Bool) (nsolver : Int) (s : LSolver D) : Option Err :=
  match nsolver with
  | 5 => do
    let ell ← s.options.rd 5
    pure (if ell < 1 then .illArg else .success)
  | 8 => do
    let restart ← s.options.rd 4
    pure (if restart < 0 then .illArg else .success)
  | 9 => do
    let restart ← s.options.rd 4
    pure (if restart < 0 then .illArg else .success)
  | 20 => do
    let restart ← s.options.rd 4
    pure (if restart < 0 then .illArg else .success)
  | 12 => do
    let w ← s.params.rd 1
    pure (if omegaOk w then .success else .illArg)
  | _ => pure .success

/-- the parameter checks of `lis_solve_kernel` (build without MPI and without quadruple precision);
`regType` is `precon_register_type` (12 plus the number of registered preconditioners).
src/solver/lis_solver.c:466-535 -/
def kernelCheck (omegaOk : D → Bool) (regType : Int) (s : LSolver D) : Option Err := do
  let nsolver ← s.options.rd 0
  let precon ← s.options.rd 1
  let maxiter ← s.options.rd 2
  let precision ← s.options.rd 18
  let conv ← s.options.rd 24
  if nsolver < 1 ∨ nsolver > 25 then pure .illArg
  else if precon < 0 ∨ precon > regType then pure .illArg
  else if maxiter < 0 then pure .illArg
  else (if conv > 0 then (convCondTable.rdI nsolver).bind fun t => some (!t) else some false).bind fun cc =>
    if cc then pure .illArg
    else if precision = 1 then pure .illArg
    else checkParams omegaOk nsolver s

/-- the checks of `lis_solve` up to the start of the solution: the range of the preconditioner, its creation
(`create`, which depends on the type), and those of `lis_solve_kernel`.
src/solver/lis_solver.c:366-402 -/
def solveCheck (omegaOk : D → Bool) (regType : Int) (create : Int → Err) (s : LSolver D) : Option Err := do
  let precon ← s.options.rd 1
  if precon < 0 ∨ precon > 10 then pure .illArg
  else if create precon ≠ .success then pure (create precon)
  else kernelCheck omegaOk regType s

/-- `lis_solver_get_residual[conv_cond]`, called by every solver after each step; the value names the
function: 0 is `…_nrm2_r`, 2 is `…_nrm1_b`. src/solver/lis_solver.c:157-161, lis_solver_cg.c:196 -/
def getResidualFn (s : LSolver D) : Option Nat := do
  let conv ← s.options.rd 24
  (Arr.ofList [0, 0, 2]).rdI conv

end Lis
