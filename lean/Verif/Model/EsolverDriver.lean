import Verif.Model.Options

/-!
# Eigensolver options and the driver `lis_esolve`/`lis_gesolve` (src/esolver/lis_esolver.c)

The option part of `struct LIS_ESOLVER_STRUCT` has the same shape as that of a solver: `LSolver` with 13 options and 3
parameters. Build without MPI, without `USE_QUAD_PRECISION`, real scalars.
-/

namespace Lis
variable {D : Type}

/-- src/esolver/lis_esolver.c:124 -/
def esolverNames : List String := ["pi", "ii", "rqi", "cg", "cr", "si", "li", "ai", "gpi", "gii", "grqi", "gcg", "gcr", "gsi",
  "gli", "gai"]

/-- `LIS_ESOLVER_OPTNAME`. src/esolver/lis_esolver.c:109-113 -/
def eoptName : List String := ["-emaxiter", "-etol", "-e", "-ss", "-m", "-shift", "-shift_im", "-eprint", "-initx_ones", "-ie",
  "-ige", "-estorage", "-estorage_block", "-ef", "-rval"]

/-- `LIS_ESOLVER_OPTACT` with the constants of include/lis.h:99-112, 131-134. src/esolver/lis_esolver.c:115-122 -/
def eoptAct : List Int := [1, 13 + 0, 0, 2, 3, 13 + 1, 13 + 2, 4, 5, 6, 7, 8, 9, 10, 12]

/-- the `switch` on the action; `dv` is the uninitialised `double_value`. src/esolver/lis_esolver.c:735-781, 794-1045 -/
def eoptSwitch (scanD : List Char → Option D) (dv : D) (act : Int) (arg2 : List Char) (s : LSolver D) :
    Option (Err × LSolver D) :=
  match act with
  | 0 => setEnum arg2 0 '9' esolverNames 1 s
  | 4 => setEnum arg2 4 '3' printNames 0 s
  | 5 => setEnum arg2 5 '1' truefalseNames 0 s
  | 6 => setEnum arg2 6 '9' esolverNames 1 s
  | 7 => setEnum arg2 7 '9' esolverNames 1 s
  | 8 => setEnum arg2 8 '9' storageNames 1 s
  | 10 => setEnum arg2 10 '1' precisionNames 0 s
  | 12 => setEnum arg2 12 '1' truefalseNames 0 s
  | a =>
    if a < 13 then do
      let s ← scanInto arg2 a.toNat s
      pure (Err.success, s)
    else do
      let p ← s.params.wr (a - 13).toNat ((scanD arg2).getD dv)
      pure (Err.success, { s with params := p })

/-- the loop over the table. On error `lis_esolver_work_destroy` frees the work vectors (`Model/EsolverLife.lean`).
src/esolver/lis_esolver.c:731-790 -/
def eoptLoop (scanD : List Char → Option D) (dv : D) (arg1 arg2 : List Char) :
    List (String × Int) → LSolver D → Option (Err × LSolver D)
  | [], s => pure (Err.success, s)
  | (nm, act) :: r, s => do
    let (err, s) ← if arg1 = nm.toList then eoptSwitch scanD dv act arg2 s else pure (Err.success, s)
    if err ≠ Err.success then pure (err, { s with retcode := err })
    else eoptLoop scanD dv arg1 arg2 r s

/-- `lis_esolver_set_option2`. src/esolver/lis_esolver.c:720-792 -/
def esetOption2 (scanD : List Char → Option D) (dv : D) (arg1 arg2 : List Char) (s : LSolver D) : Option (Err × LSolver D) :=
  eoptLoop scanD dv arg1 arg2 (eoptName.zip eoptAct) s

/-- the loop over the pairs. src/esolver/lis_esolver.c:676-687, 701-713 -/
def esetOptionArgs (scanD : List Char → Option D) (dv : D) :
    List (List Char × List Char) → LSolver D → Option (Err × LSolver D)
  | [], s => pure (Err.success, s)
  | (a, b) :: r, s => do
    let (err, s) ← esetOption2 scanD dv a b s
    if err ≠ Err.success then pure (err, { s with retcode := err })
    else esetOptionArgs scanD dv r s

/-- `lis_esolver_set_option`. src/esolver/lis_esolver.c:693-718 -/
def esetOption (scanD : List Char → Option D) (dv : D) (junk : Nat → Char) (text : List Char) (s : LSolver D) :
    Option (Err × LSolver D) := do
  let args ← text2args junk text
  esetOptionArgs scanD dv args s

/-- the option part of `lis_esolver_init`; `retcode` and the option `LIS_EOPTIONS_SWITCH_MAXITER` are not initialised.
src/esolver/lis_esolver.c:171-186 -/
def esolverInit (lit : ℚ → D) (rc : Err) (j11 : Int) : LSolver D where
  options := Arr.ofList [5, 1000, 1, 0, 0, 1, 2, 10, 0, 2, 0, j11, 0]
  params := ⟨3, fun i => lit ([1 / 1000000000000, 0, 0].getD i 0)⟩
  retcode := rc

/-! ### the driver -/

/-- what `lis_gesolve` looks at in its arguments: the result of `lis_matrix_check`, the sizes -/
structure GArg where
  chk : Err
  n : Int
  gn : Int

/-- the arrays a run allocates. `lis_malloc` of a negative number of bytes (a huge `size_t`) fails; otherwise it succeeds -/
structure EArrs (R S : Type) where
  evalue : Arr R
  resid : Arr S
  iter : Arr Int
  iter2 : Arr Int
  rhistory : Arr S

variable {R S V : Type}

/-- `lis_esolver_check_params[nesolver](esolver)`: the three subspace methods and their generalized forms refuse a negative
subspace size, the others check nothing. src/esolver/lis_esolver_li.c:83-98, 390-405, lis_esolver_ai.c:85-100, 425-440,
lis_esolver_si.c:82-97, 380-395 -/
def echeckParams (nesolver ss : Int) : Err :=
  if nesolver ∈ ([6, 7, 8, 14, 15, 16] : List Int) ∧ ss < 0 then .illArg else .success

/-- the parameter checks before `lis_esolver_check_params`. src/esolver/lis_esolver.c:322-444 -/
def gesolveCheck (A : GArg) (B : Option GArg) (xn : Int) (nesolver ss mode : Int) : Err :=
  let err := match B with
    | none => A.chk
    | some b => b.chk
  if err ≠ .success then err
  else if A.n ≠ xn then .illArg
  else if B.any (fun b => b.n ≠ xn) then .illArg
  else if A.gn ≤ 0 then .illArg
  else if B.any (fun b => b.gn ≤ 0) then .illArg
  else if nesolver < 1 ∨ nesolver > 16 then .illArg
  else if nesolver ∈ ([6, 14] : List Int) ∧ ss > A.gn then .illArg
  else if nesolver ∈ ([7, 8, 15, 16] : List Int) ∧ ss > A.gn then .illArg
  else if nesolver ∈ ([6, 14] : List Int) ∧ mode ≥ ss then .illArg
  else if nesolver ∈ ([7, 8, 15, 16] : List Int) ∧ mode ≥ ss then .illArg
  else .success

/-- the result of a call: the code returned, `esolver->retcode`, and, if the solver was run, the arrays, `*evalue0`, `x` -/
structure GOut (R S V : Type) where
  ret : Err
  retcode : Err
  run : Option (EArrs R S × R × V)

/-- `lis_gesolve` (`B = none` for `lis_esolve`). `exec nesolver` is the solver: from the start vector and the arrays to its code,
its vector and the arrays. `ones` is the vector of ones. `x`: the caller's vector. The conversion of `A` to another storage
format (`-estorage`), printing and timing are left out; a failing `lis_malloc` is modelled for negative sizes only: the
function then returns `err`, which is `LIS_SUCCESS`. src/esolver/lis_esolver.c:296-665 -/
def gesolve [One R] [One S] (exec : Int → V → EArrs R S → Option (Err × V × EArrs R S)) (ones : V) (jR : ℕ → R) (jS : ℕ → S)
    (jI : ℕ → Int) (A : GArg) (B : Option GArg) (xn : Int) (x : V) (s : LSolver D) : Option (GOut R S V) := do
  let nesolver ← s.options.rd 0
  let ss ← s.options.rd 2
  let mode ← s.options.rd 3
  let emaxiter ← s.options.rd 1
  let initOnes ← s.options.rd 5
  let err := gesolveCheck A B xn nesolver ss mode
  let err2 := echeckParams nesolver ss
  if err ≠ .success then pure ⟨err, s.retcode, none⟩
  else if err2 ≠ .success then pure ⟨err2, err2, none⟩
  else if ss + 2 < 0 then pure ⟨.success, .success, none⟩
  else do
    let evalue ← (Arr.malloc (ss + 2).toNat jR).wrI 0 1
    let evalue ← evalue.wrI (ss - 1) 1
    let resid := Arr.malloc (ss + 2).toNat jS
    let iter := Arr.malloc (ss + 2).toNat jI
    let iter2 := Arr.malloc (ss + 2).toNat jI
    let xx := if initOnes ≠ 0 then ones else x
    if emaxiter + 2 < 0 then pure ⟨.success, .success, none⟩
    else do
      let rh ← (Arr.malloc (emaxiter + 2).toNat jS).wrI 0 1
      let (e, xx, a) ← exec nesolver xx ⟨evalue, resid, iter, iter2, rh⟩
      let ev ← a.evalue.rdI 0
      let it ← a.iter.rdI mode
      let it2 ← a.iter2.wrI mode it
      pure ⟨.success, e, some ({ a with iter2 := it2 }, ev, xx)⟩

/-- `lis_esolve`. src/esolver/lis_esolver.c:266-286 -/
def esolve [One R] [One S] (exec : Int → V → EArrs R S → Option (Err × V × EArrs R S)) (ones : V) (jR : ℕ → R) (jS : ℕ → S)
    (jI : ℕ → Int) (A : GArg) (xn : Int) (x : V) (s : LSolver D) : Option (GOut R S V) := do
  let r ← gesolve exec ones jR jS jI A none xn x s
  if r.ret ≠ .success then pure { r with retcode := r.ret } else pure r

/-- `lis_esolver_get_rhistory` into a vector of `m` elements: element `i` is written for `i < min(m, iter[0]+1)`, one less after
an unsuccessful run. src/esolver/lis_esolver.c:1121-1136 -/
def egetRhistory (retcode : Err) (a : EArrs R S) (v : Arr S) : Option (Arr S) := do
  let it ← a.iter.rd 0
  let maxiter := if retcode ≠ .success then it + 1 - 1 else it + 1
  loop 0 (min (v.size : Int) maxiter).toNat v fun i v => do
    let t ← a.rhistory.rd i
    v.wr i t

end Lis
