import Verif.Base.C
import Verif.Model.Assembly

/-!
# Which `psolve` a solver calls: the function tables of src/precon/lis_precon.c

`lis_psolve(solver,b,x)` is the macro `lis_psolve_xxx[solver->precon->precon_type](solver,b,x)`.  The tables
`lis_psolve_xxx` and `lis_psolveh_xxx` are global and the functions that create a preconditioner write to them: the ILU
preconditioner stores the function for the storage format of this matrix, the (I+S) preconditioner stores `psolve_is` or
`psolve_none`.  A preconditioner object does not record which function belongs to it.
-/

namespace Lis

/-- the functions stored in the tables; the same names say what data a preconditioner object holds, that is, which function
can apply it -/
inductive PKern where
  | none | jacobi | iluCsr | iluBsr | iluVbr | ssor | hybrid | is | sainv | saamg | iluc | ilucBsr | ilut | bjacobi | adds
  | user (k : ℕ)
deriving DecidableEq, Repr, Inhabited

/-- storage formats as far as the functions here tell them apart; `other` is any of the eight remaining ones.
include/lis.h:268-280 -/
inductive MFmt where
  | csr | bsr | vbr | other
deriving DecidableEq, Repr, Inhabited

/-- `lis_psolve_xxx[]` and `lis_psolveh_xxx[]` -/
structure PTables where
  ps : Arr PKern
  psh : Arr PKern

/-- the two tables at the start of the program. src/precon/lis_precon.c:81-93 -/
def PTables.init : PTables where
  ps := Arr.ofList [.none, .jacobi, .iluCsr, .ssor, .hybrid, .none, .sainv, .saamg, .iluc, .ilut, .bjacobi, .adds]
  psh := Arr.ofList [.none, .jacobi, .iluCsr, .ssor, .hybrid, .none, .sainv, .saamg, .iluc, .ilut, .bjacobi, .adds]

/-- the options of the solver object that matter here and the format of its matrix: `LIS_OPTIONS_PRECON`,
`LIS_OPTIONS_ADDS`, `LIS_OPTIONS_STORAGE` (`Option.none`: 0, keep the format), `LIS_OPTIONS_ISLEVEL`,
`LIS_OPTIONS_SOLVER`, `LIS_OPTIONS_PSOLVER`, `LIS_OPTIONS_PPRECON`, `A->matrix_type` -/
structure POpts where
  precon : ℕ
  adds : Bool
  storage : Option MFmt
  islevel : ℕ
  nsol : ℕ
  psol : ℕ
  ppre : ℕ
  mtype : MFmt
deriving DecidableEq, Repr, Inhabited

/-- the options `lis_precon_create_hybrid` gives to its inner solver: those it does not assign keep their defaults.
src/precon/lis_precon_hybrid.c:76-95, src/solver/lis_solver.c:236-292 -/
def POpts.inner (o : POpts) : POpts where
  precon := o.ppre
  adds := false
  storage := Option.none
  islevel := 1
  nsol := o.psol
  psol := 12
  ppre := 0
  mtype := o.mtype

/-- what may go wrong at depth `d` (0: the preconditioner the user asked for, 1: the one inside a hybrid, …): `alloc d` says
whether the allocations of `lis_precon_create_adds` succeed, `ok d` whether the conversions, splittings, allocations and
factorizations whose error code is looked at succeed -/
structure PEnv where
  alloc : ℕ → Bool
  ok : ℕ → Bool

/-- one preconditioner object: `precon_type`, the `LIS_OPTIONS_PRECON` of its solver, and the data it holds -/
structure PLayer where
  ptype : ℕ
  base : ℕ
  data : PKern
deriving DecidableEq, Repr, Inhabited

/-- a preconditioner with, for a hybrid one, the preconditioner of its inner solver, and so on -/
abbrev PObj := List PLayer

/-- `lis_psolve_xxx[k] = f; lis_psolveh_xxx[k] = f;` -/
def PTables.store (t : PTables) (k : ℕ) (f : PKern) : Option PTables := do
  let ps ← t.ps.wr k f
  let psh ← t.psh.wr k f
  pure ⟨ps, psh⟩

/-- the format of `solver->A` after the conversion at the head of `lis_precon_create_iluk`.
src/precon/lis_precon_iluk.c:78-88 -/
def POpts.iluFmt (o : POpts) : MFmt :=
  match o.storage with
  | some .bsr => .bsr
  | some .vbr => .vbr
  | _ => o.mtype

/-- the format of `solver->A` after the conversion at the head of `lis_precon_create_iluc`.
src/precon/lis_precon_iluc.c:73-86 -/
def POpts.ilucFmt (o : POpts) : MFmt :=
  match o.storage with
  | some .bsr => .bsr
  | _ => o.mtype

/-- `lis_precon_create_iluk`. The result is the tables and, unless an error is returned, the data.
src/precon/lis_precon_iluk.c:71-140 -/
def createIluk (o : POpts) (ok : Bool) (t : PTables) : Option (PTables × Option PKern) :=
  if ok then
    match o.iluFmt with
    | .csr => do
      let t ← t.store 2 .iluCsr
      pure (t, some .iluCsr)
    | .bsr => do
      let t ← t.store 2 .iluBsr
      pure (t, some .iluBsr)
    | .vbr => do
      -- the assignment to `lis_psolveh_xxx` is commented out
      let ps ← t.ps.wr 2 .iluVbr
      pure (⟨ps, t.psh⟩, some .iluVbr)
    | .other => do
      let t ← t.store 2 .iluCsr
      pure (t, some .iluCsr)
  else pure (t, Option.none)

/-- `lis_precon_create_is`: the tables are written before anything can fail. src/precon/lis_precon_is.c:58-145 -/
def createIs (o : POpts) (ok : Bool) (t : PTables) : Option (PTables × Option PKern) :=
  if o.islevel ≠ 0 ∧ (o.nsol < 10 ∨ o.nsol > 12) then do
    let t ← t.store 5 .is
    pure (t, if ok then some .is else Option.none)
  else do
    let t ← t.store 5 .none
    pure (t, if ok then some .none else Option.none)

/-- `lis_precon_create_iluc`: only the branch for BSR writes a table. The error code of the factorization itself is not
looked at. src/precon/lis_precon_iluc.c:66-128 -/
def createIluc (o : POpts) (ok : Bool) (t : PTables) : Option (PTables × Option PKern) :=
  if ok then
    match o.ilucFmt with
    | .bsr => do
      let ps ← t.ps.wr 8 .ilucBsr
      pure (⟨ps, t.psh⟩, some .ilucBsr)
    | _ => pure (t, some .iluc)
  else pure (t, Option.none)

/-- `lis_precon_create_ilut`. src/precon/lis_precon_ilut.c:66-99 -/
def createIlut (ok : Bool) (t : PTables) : Option (PTables × Option PKern) :=
  if ok then do
    let t ← t.store 9 .ilut
    pure (t, some .ilut)
  else pure (t, Option.none)

/-- the creators that leave the tables alone. src/precon/lis_precon.c:301-311, lis_precon_jacobi.c, lis_precon_ssor.c,
lis_precon_sainv.c, lis_precon_saamg.c, lis_precon_bjacobi.c -/
def createPlain (k : PKern) (ok : Bool) (t : PTables) : Option (PTables × Option PKern) :=
  pure (t, if ok then some k else Option.none)

/-- `lis_precon_create_xxx[type](solver,precon)`, a table of eleven functions; `inner` is the call of `lis_precon_create`
in `lis_precon_create_hybrid`. The result is the tables and, unless an error is returned, the data of the object and the
layers below it. src/precon/lis_precon.c:58-64, lis_precon_hybrid.c:61-158 -/
def createXxx (inner : PTables → Option (PTables × Option PObj)) (o : POpts) (ok : Bool) (t : PTables) :
    Option (PTables × Option (PKern × PObj)) :=
  let lift := fun r : Option (PTables × Option PKern) => r.map fun q => (q.1, q.2.map fun k => (k, ([] : PObj)))
  match o.precon with
  | 0 => lift (createPlain .none true t)
  | 1 => lift (createPlain .jacobi ok t)
  | 2 => lift (createIluk o ok t)
  | 3 => lift (createPlain .ssor ok t)
  | 4 => do
    let (t, p) ← inner t
    match p with
    | some p => pure (t, if ok then some (.hybrid, p) else Option.none)
    | Option.none => pure (t, Option.none)
  | 5 => lift (createIs o ok t)
  | 6 => lift (createPlain .sainv ok t)
  | 7 => lift (createPlain .saamg ok t)
  | 8 => lift (createIluc o ok t)
  | 9 => lift (createIlut ok t)
  | 10 => lift (createPlain .bjacobi ok t)
  | _ => Option.none

/-- `lis_precon_create` at depth `d`, `reg` being the number of registered preconditioners; `fuel` bounds the number of
nested hybrids (3 always suffices, `createAt_fuel`). The second component of the result is `none` if an error code is
returned. src/precon/lis_precon.c:118-165, lis_precon_ads.c:57-109 -/
def createAt (reg : ℕ) (e : PEnv) : ℕ → ℕ → POpts → PTables → Option (PTables × Option PObj)
  | 0, _, _, _ => Option.none
  | fuel + 1, d, o, t =>
    let inner := createAt reg e fuel (d + 1) o.inner
    if 12 ≤ o.precon then
      -- `precon_register_top[precon_type-LIS_PRECON_TYPE_USERDEF].pcreate(solver,*precon)`
      if o.precon - 12 < reg then
        pure (t, if e.ok d then some [⟨o.precon, o.precon, .user (o.precon - 12)⟩] else Option.none)
      else Option.none
    else if o.precon ≠ 0 ∧ o.adds = true then
      if e.alloc d then do
        let (t, r) ← createXxx inner o (e.ok d) t
        -- `(*precon)->precon_type = LIS_PRECON_TYPE_ADDS`
        pure (t, r.map fun q => ⟨11, o.precon, q.1⟩ :: q.2)
      else pure (t, Option.none)
    else do
      let (t, r) ← createXxx inner o (e.ok d) t
      pure (t, r.map fun q => ⟨o.precon, o.precon, q.1⟩ :: q.2)

/-- `lis_precon_create` -/
def createPrecon (reg : ℕ) (e : PEnv) (o : POpts) (t : PTables) : Option (PTables × Option PObj) :=
  createAt reg e 3 0 o t

/-- a program that creates preconditioners, one call after the other; an error code does not stop it -/
def createAll (reg : ℕ) : List (POpts × PEnv) → PTables → Option PTables
  | [], t => some t
  | (o, e) :: l, t => (createPrecon reg e o t).bind fun r => createAll reg l r.1

/-- the functions called to apply one object, each with the data it gets: `lis_psolve` indexes `tab` with `precon_type`,
`lis_psolve_adds` indexes it with `LIS_OPTIONS_PRECON`. include/lis_precon.h:32-33, lis_precon_ads.c:128-152 -/
def PLayer.calls (tab : Arr PKern) (l : PLayer) : Option (List (PKern × PKern)) := do
  let f ← tab.rd l.ptype
  if l.ptype = 11 then do
    let g ← tab.rd l.base
    pure [(f, .adds), (g, l.data)]
  else pure [(f, l.data)]

/-- the functions called while a preconditioner is applied; the solver inside a hybrid preconditioner applies the next layer
the same way. src/precon/lis_precon_hybrid.c:160-234 -/
def PObj.calls (tab : Arr PKern) : PObj → Option (List (PKern × PKern))
  | [] => some []
  | l :: p => do
    let c ← l.calls tab
    let cs ← PObj.calls tab p
    pure (c ++ cs)

end Lis
