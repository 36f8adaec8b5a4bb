import Verif.Base.C

/-!
# Option text (src/system/lis_init.c)

Characters are `Char`, `tolower` is the ASCII one.  The linked list of arguments is the list of its
`(arg1, arg2)` pairs in order; `malloc` succeeds.
-/

namespace Lis

/-- `*p==' ' || *p=='\t' || *p=='\n' || *p=='\r'` -/
def isWs (c : Char) : Bool := c = ' ' || c = '\t' || c = '\n' || c = '\r'

/-- the end of a C string -/
def nul : Char := Char.ofNat 0

/-- `strcpy(buf,text)`. src/system/lis_init.c:245 -/
def strcpyBuf (buf : Arr Char) : Nat → List Char → Option (Arr Char)
  | p, [] => buf.wr p nul
  | p, c :: l => do
    let buf ← buf.wr p c
    strcpyBuf buf (p + 1) l

/-- `while( isws(*p) ) p++`. src/system/lis_init.c:250-253, 264-267 -/
def skipWs (buf : Arr Char) (p : Nat) : Option Nat :=
  whileL (fun p => (buf.rd p).bind fun c => some (isWs c)) (fun p => some (p + 1)) p

/-- `while( !isws(*p) && *p!='\0' ) { *p = tolower(*p); p++; }`. src/system/lis_init.c:255-259, 269-273 -/
def scanWord (buf : Arr Char) (p : Nat) : Option (Arr Char × Nat) :=
  whileL (fun s : Arr Char × Nat => (s.1.rd s.2).bind fun c => some (!isWs c && c != nul))
    (fun s => (s.1.rd s.2).bind fun c => (s.1.wr s.2 c.toLower).bind fun b => some (b, s.2 + 1)) (buf, p)

/-- the string starting at `p`: `strlen` and `strcpy` of it. src/system/lis_init.c:276-277, 287-288 -/
def cstr (buf : Arr Char) (p : Nat) : Option (List Char) :=
  (whileL (fun s : Nat × List Char => (buf.rd s.1).bind fun c => some (c != nul))
    (fun s => (buf.rd s.1).bind fun c => some (s.1 + 1, s.2 ++ [c])) (p, [])).bind fun s => some s.2

/-- variables of `lis_text2args`; `brk` is set by `break` -/
structure T2A where
  buf : Arr Char
  p : Nat
  f : Bool
  brk : Bool
  args : List (List Char × List Char)

/-- `*p!='\0' && f` (not evaluated after `break`). src/system/lis_init.c:248 -/
def t2aCond (s : T2A) : Option Bool :=
  if s.brk then some false
  else (s.buf.rd s.p).bind fun c => some (c != nul && s.f)

/-- loop body. src/system/lis_init.c:249-290 -/
def t2aBody (s : T2A) : Option T2A := do
  let s1 ← skipWs s.buf s.p
  let w ← scanWord s.buf s1
  let c ← w.1.rd w.2
  if c = nul then pure { s with buf := w.1, p := w.2, brk := true } else do
    let buf ← w.1.wr w.2 nul
    let s2 ← skipWs buf (w.2 + 1)
    let w ← scanWord buf s2
    let c ← w.1.rd w.2
    let f := if c = nul then false else s.f
    let buf ← w.1.wr w.2 nul
    let a1 ← cstr buf s1
    let a2 ← cstr buf s2
    let args := if 0 < a1.length ∧ 0 < a2.length then s.args ++ [(a1, a2)] else s.args
    pure ⟨buf, w.2 + 1, f, false, args⟩

/-- `lis_text2args`; `junk` is the uninitialised local buffer. src/system/lis_init.c:229-296 -/
def text2args (junk : Nat → Char) (text : List Char) : Option (List (List Char × List Char)) := do
  let buf ← strcpyBuf (Arr.malloc 1024 junk) 0 text
  let s ← whileL t2aCond t2aBody ⟨buf, 0, true, false, []⟩
  pure s.args

/-- `lis_arg2args` on `argv[1..]`: a word starting with `-` takes the next one. src/system/lis_init.c:299-355 -/
def arg2args : List (List Char) → List (List Char × List Char)
  | a :: b :: r =>
    if a.head? = some '-' then (a.map Char.toLower, b.map Char.toLower) :: arg2args r else arg2args (b :: r)
  | _ => []

end Lis
