import Verif.Model.MMIO

/-
Model of vector files: `lis_input_vector` (/repo/src/system/lis_input.c:187-640) and
`lis_output_vector` (/repo/src/system/lis_output.c:142-580).

Files are lists of lines as in Model/MMIO.  Further simplifications, here: `fscanf`/`sscanf` consume
a word whole or not at all (so `1.5` is not read by `%d %lg` as `1` and `.5`), a line is not longer
than the buffers, a line whose first word begins with `#` has the `#` in its first column, opening a
file succeeds, and the 64-bit integer builds and the quad-precision vectors are left out.
-/
namespace Lis
variable {K R : Type}

/-- `fileformat` (lis_input.c:216-228) -/
inductive VFmt | mm | lis | plain
deriving DecidableEq, Repr

/-- the format of a vector file (lis_input.c:210-228).  An empty first line leaves `banner`
uninitialised; a first word of 128 characters or more overflows it. -/
def vecFormat : List (Line K) → Option (Except Err VFmt)
  | [] => some (.error .fileIo)
  | l :: _ => match l.words with
    | [] => none
    | w :: _ =>
      if w.txt.length < 128 then
        some (.ok (if hasPrefix "%%MatrixMarket" w.txt then .mm
          else if hasPrefix "#LIS" w.txt then .lis else .plain))
      else none

/-- the banner of a Matrix Market vector (lis_input.c:267-313); `cplx` is `_COMPLEX` -/
def vmBanner (cplx : Bool) : List (Line K) → Option (Except Err MMType)
  | [] => some (.error .fileIo)
  | l :: _ =>
    (bannerWord l 0).bind fun banner =>
    (bannerWord l 1).bind fun mtx0 =>
    (bannerWord l 2).bind fun fmt0 =>
    (bannerWord l 3).bind fun dtype0 =>
    (bannerWord l 4).bind fun dstruct0 =>
    if (!hasPrefix "%%MatrixMarket" banner || !hasPrefix "vector" (lowerWord mtx0)) = true then
      some (.error .fileIo)
    else if (!hasPrefix "coordinate" (lowerWord fmt0) && !hasPrefix "array" (lowerWord fmt0)) = true then
      some (.error .fileIo)
    else
    match (if hasPrefix "real" (lowerWord dtype0) then some MMType.real
           else if (cplx && hasPrefix "complex" (lowerWord dtype0)) = true then some MMType.complex
           else none) with
    | none => some (.error .fileIo)
    | some t =>
    if (!hasPrefix "general" (lowerWord dstruct0)) = true then some (.error .fileIo)
    else some (.ok t)

/-- body of the reading loop (lis_input.c:379-397): only elements `is ≤ idx < ie` of this process
are stored -/
def vmStore (io : NumIO K R) (is ie : ℕ) (e : ℤ × K × Option K) (v : Arr R) : Option (Arr R) :=
  let idx := e.1 - 1
  if (is : ℤ) ≤ idx ∧ idx < ie then v.wrI (idx - is) (mirVal io e.2.1 e.2.2) else some v

/-- `lis_input_vector_mm` (lis_input.c:253-400).  `range n` is what `lis_vector_set_size(v,0,n)` makes
the range `is, ie` of this process (`0, n` in a serial build); it also rejects `n < 0` and fills the
vector with zeros (src/vector/lis_vector.c:156-248). -/
def inputVectorMm [Zero R] (io : NumIO K R) (cplx : Bool) (range : ℕ → ℕ × ℕ) (file : List (Line K)) :
    Option (Except Err (Arr R)) :=
  (vmBanner cplx file).bind fun r =>
  match r with
  | .error e => some (.error e)
  | .ok t =>
  match mmSkip file.tail with
  | none => some (.error .fileIo)
  | some (l, data) =>
  match scanInts 1 l.words with
  | [] => some (.error .fileIo)
  | n :: _ =>
  if n < 0 then some (.error .illArg)
  else
  (readLoop (scanVec t) (vmStore io (range n.toNat).1 (range n.toNat).2) n.toNat data
    ⟨(range n.toNat).2 - (range n.toNat).1, fun _ => 0⟩).map fun r => r.map Prod.fst

/-- `do { err = fscanf(file,"%lg",&val); if( err==1 ) n++; } while( err==1 )` (lis_input.c:412-418):
the words of the file, across lines, up to the first that is not a number -/
def countNums : List (Word K) → ℕ
  | [] => 0
  | w :: ws => match w.num? with
    | none => 0
    | some _ => countNums ws + 1

/-- the reading loop of `lis_input_vector_plain` (lis_input.c:429-447): one *line* per element -/
def plainLoop (io : NumIO K R) (is ie : ℕ) : ℕ → ℕ → List (Line K) → Arr R → Option (Except Err (Arr R))
  | 0, _, _, v => some (.ok v)
  | _ + 1, _, [], _ => some (.error .fileIo)
  | k + 1, i, l :: rest, v =>
    if is ≤ i ∧ i < ie then
      match scanVal .real l with
      | none => some (.error .fileIo)
      | some e => (v.wr (i - is) (io.re e.1)).bind (plainLoop io is ie k (i + 1) rest)
    else plainLoop io is ie k (i + 1) rest v

/-- `lis_input_vector_plain` (lis_input.c:402-449): in every build one `%lg` per element -/
def inputVectorPlain [Zero R] (io : NumIO K R) (range : ℕ → ℕ × ℕ) (file : List (Line K)) :
    Option (Except Err (Arr R)) :=
  let n := countNums (file.flatMap Line.words)
  plainLoop io (range n).1 (range n).2 n 0 file ⟨(range n).2 - (range n).1, fun _ => 0⟩

/-- the words of the first line after `buf[10] = '\0'` (lis_input.c:464-465), the words being
separated by single blanks -/
def cutWords (ws : List (List Char)) : List (List Char) :=
  (((List.intercalate [' '] ws).take 10).splitOn ' ').filter fun w => !w.isEmpty

/-- `lis_fscan_scalar` (lis_input.c:617-639) with `k = n - i` elements to go: what it returns, and the
array.  `d` is the local `double_value`, initially uninitialised. -/
def fscanScalar (io : NumIO K R) (d : K) : ℕ → ℕ → List (Word K) → Arr R → Option (ℤ × Arr R)
  | 0, _, _, v => some (0, v)
  | k + 1, i, ws, v =>
    match ws with
    | [] => (v.wr i (io.re d)).map fun v => (-1, v)
    | w :: _ => match w.num? with
      | some x => (v.wr i (io.re x)).map fun v => (1, v)
      | none => (v.wr i (io.re d)).bind (fscanScalar io d k (i + 1) ws)

/-- the search for the line `# pe n` of process `rank` (lis_input.c:572-594): `some none` is the error
return.  A first word beginning with `#` but longer is not modelled. -/
def lisFind (rank : ℤ) : List (Line K) → Option (Option (ℤ × List (Line K)))
  | [] => some none
  | l :: rest => match l.words with
    | [] => lisFind rank rest
    | w :: ws =>
      if w.txt = ['#'] then
        match scanInts 2 ws with
        | [pe, n] => if pe = rank then some (some (n, rest)) else lisFind rank rest
        | _ => some none
      else if w.txt.head? = some '#' then none
      else lisFind rank rest

/-- `lis_input_vector_lis_ascii` (lis_input.c:527-613), serial build: returned error code, and the
vector (`none`: still without a size) -/
def inputVectorLisAscii [Zero R] (io : NumIO K R) (d : K) (file : List (Line K)) :
    Option (Err × Option (Arr R)) :=
  match file with
  | [] => some (.fileIo, none)
  | l :: rest =>
  match scanInts 1 l.words with
  | [] => some (.fileIo, none)
  | p :: _ =>
  if p ≠ 1 then some (.fileIo, none)
  else
  (lisFind 0 rest).bind fun r =>
  match r with
  | none => some (.fileIo, none)
  | some (n, data) =>
  if n < 0 then some (.illArg, none)
  else
  (fscanScalar io d n.toNat 0 (data.flatMap Line.words) ⟨n.toNat, fun _ => 0⟩).map fun r =>
    (if r.1 = 0 then .success else .fileIo, some r.2)

/-- `lis_input_vector_lis` (lis_input.c:451-524), serial build.  For a binary file (mode `B` or `L`)
`file` is closed here and again by the caller: undefined.  The value returned by
`lis_input_vector_lis_ascii` is not looked at. -/
def inputVectorLis [Zero R] (io : NumIO K R) (d : K) (file : List (Line K)) :
    Option (Except Err (Option (Arr R))) :=
  match file with
  | [] => some (.error .fileIo)
  | l :: rest =>
  match cutWords (l.words.map Word.txt) with
  | banner :: tl =>
    if (!hasPrefix "#LIS" banner) = true then some (.error .fileIo)
    else match tl with
    | mode :: mattype :: _ =>
      if mode.head? = some 'B' ∨ mode.head? = some 'L' then none
      else if hasPrefix "vec" mattype then
        (inputVectorLisAscii io d rest).map fun r => .ok r.2
      else some (.error .fileIo)
    | _ => none
  | [] => none

/-- `lis_input_vector` (lis_input.c:190-247) on a vector without a size: error code, or success with
the vector (`none`: it has no size yet).  `lis` files are modelled for the serial build. -/
def inputVector [Zero R] (io : NumIO K R) (cplx : Bool) (range : ℕ → ℕ × ℕ) (d : K) (file : List (Line K)) :
    Option (Except Err (Option (Arr R))) :=
  (vecFormat file).bind fun r =>
  match r with
  | .error e => some (.error e)
  | .ok .mm => (inputVectorMm io cplx range file).map fun r => r.map some
  | .ok .lis => inputVectorLis io d file
  | .ok .plain => (inputVectorPlain io range file).map fun r => r.map some

/-! ### writing -/

/-- the vector to be written: `n`, `value`, `intvalue` (include/lis.h:515-540); `is` = 0, `gn` = `n` -/
structure OutVec (R : Type) where
  n : ℕ
  value : Arr R
  int : Bool

/-- one element: `%28d` of `(int)v->value[i]`, or `%28.20e`, or `%28.20e %28.20e`
(lis_output.c:254-270); `ti` is the cast to `int` -/
def elemWords (pr : Printer K) (pt : Parts K R) (ti : R → ℤ) (cplx int : Bool) (x : R) : List (Word K) :=
  if int then [pr.int (ti x)] else numWords pr pt cplx x

/-- `lis_output_vector_plain` (lis_output.c:180-278), serial -/
def outputVectorPlain (pr : Printer K) (pt : Parts K R) (ti : R → ℤ) (cplx : Bool) (v : OutVec R) :
    Option (List (Line K)) :=
  loop 0 v.n [] fun i (acc : List (Line K)) => do
    let x ← v.value.rd i
    pure (acc ++ [⟨false, elemWords pr pt ti cplx v.int x⟩])

/-- the type word of the banner (lis_output.c:408-419) -/
def typeWord (cplx int : Bool) : String :=
  if int then "integer" else if cplx then "complex" else "real"

/-- `lis_output_vector_mm` (lis_output.c:280-462), serial -/
def outputVectorMm (pr : Printer K) (pt : Parts K R) (ti : R → ℤ) (cplx : Bool) (v : OutVec R) :
    Option (List (Line K)) :=
  (loop 0 v.n [] fun i (acc : List (Line K)) => do
    let x ← v.value.rd i
    pure (acc ++ [⟨false, pr.int (i + 1) :: elemWords pr pt ti cplx v.int x⟩])).map fun lines =>
  ⟨true, [pr.word "%%MatrixMarket", pr.word "vector", pr.word "coordinate",
    pr.word (typeWord cplx v.int), pr.word "general"]⟩ :: ⟨false, [pr.int v.n]⟩ :: lines

/-- `lis_output_vector_lis_ascii` (lis_output.c:464-580), serial: three elements per line -/
def outputVectorLis (pr : Printer K) (pt : Parts K R) (ti : R → ℤ) (cplx : Bool) (v : OutVec R) :
    Option (List (Line K)) :=
  (loop 0 v.n ([], []) fun i (s : List (Line K) × List (Word K)) => do
    let x ← v.value.rd i
    let cur := s.2 ++ elemWords pr pt ti cplx v.int x
    pure (if (i + 1) % 3 = 0 then (s.1 ++ [⟨false, cur⟩], []) else (s.1, cur))).map fun s =>
  ⟨false, [pr.word "#LIS", pr.word "A", pr.word "vec"]⟩ :: ⟨false, [pr.int 1]⟩ ::
  ⟨false, [pr.word "#", pr.int 0, pr.int v.n]⟩ ::
  (s.1 ++ if v.n % 3 ≠ 0 then [⟨false, s.2⟩] else [])

/-- `lis_output_vector` (lis_output.c:142-178): LIS_FMT_PLAIN 1, LIS_FMT_MM 2, LIS_FMT_LIS 3
(include/lis.h:56-58) -/
def outputVector (pr : Printer K) (pt : Parts K R) (ti : R → ℤ) (cplx : Bool) (format : ℤ) (v : OutVec R) :
    Option (Except Err (List (Line K))) :=
  if format = 1 then (outputVectorPlain pr pt ti cplx v).map .ok
  else if format = 2 then (outputVectorMm pr pt ti cplx v).map .ok
  else if format = 3 then (outputVectorLis pr pt ti cplx v).map .ok
  else some (.error .illArg)

end Lis
