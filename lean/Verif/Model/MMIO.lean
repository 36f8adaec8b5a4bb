import Mathlib.Data.Int.Notation
import Verif.Base.C
import Verif.Model.Assembly
import Verif.Spec.Formats

/-
Model of the Matrix Market reader and writer:
/repo/src/system/lis_input_mm.c, lis_input.c and /repo/src/system/lis_output_mm.c.

A file is the list of the pieces that successive `fgets(buf,BUFSIZE,file)` calls return.  A piece
is seen through what the code does with it: its first character (`buf[0]=='%'`) and its
blank-separated words, each with its text (`%s`), its value under `%d` and its value under `%lg`.
The conversion between text and numbers (glibc's `sscanf`/`fprintf`) is not modelled.
Binary files (`isbin`), the 64-bit integer builds and the `printf` of the matrix size are not
modelled.
-/
namespace Lis
variable {K R : Type}

/-- a blank-separated word of a line: its characters, and what `%d` / `%lg` make of it -/
structure Word (K : Type) where
  txt : List Char
  int? : Option ℤ
  num? : Option K

/-- what one `fgets` call returns -/
structure Line (K : Type) where
  pct : Bool
  words : List (Word K)

/-- how `double`s read from a file become scalars: `re`, `re + im*_Complex_I`,
`re - im*_Complex_I` (lis_input_mm.c:985-1029) -/
structure NumIO (K R : Type) where
  re : K → R
  cx : K → K → R
  cxc : K → K → R

/-- `mmfmt`: MM_COO, MM_DNS (include/lis_io.h:37-38) -/
inductive MMFmt | coo | dns
deriving DecidableEq, Repr
/-- `mmtype`: MM_REAL, MM_COMPLEX (include/lis_io.h:44-45) -/
inductive MMType | real | complex
deriving DecidableEq, Repr
/-- `mmstruct`: MM_GENERAL, MM_SYMM, MM_HERM (include/lis_io.h:46-48) -/
inductive MMStruct | general | symm | herm
deriving DecidableEq, Repr

/-- `for(p=s;*p!='\0';p++) *p = (char)tolower(*p)` (lis_input_mm.c:337-340) -/
def lowerWord (s : List Char) : List Char := s.map Char.toLower

/-- `strncmp(s, key, strlen(key))==0` (lis_input_mm.c:342-404) -/
def hasPrefix (key : String) (s : List Char) : Bool := key.toList.isPrefixOf s

/-- the `k`-th word read by `sscanf(buf,"%s %s %s %s %s",…)` into a `char[64]`
(lis_input_mm.c:326,335): undefined when the word is missing (the buffer is never initialised)
or has 64 characters or more (the buffer overflows). -/
def bannerWord (l : Line K) (k : ℕ) : Option (List Char) :=
  match l.words[k]? with
  | none => none
  | some w => if w.txt.length < 64 then some w.txt else none

/-- `lis_input_mm_banner` (lis_input_mm.c:321-411) on a file with the given first line;
`cplx` is `_COMPLEX`. -/
def mmBanner (cplx : Bool) : List (Line K) → Option (Except Err (MMFmt × MMType × MMStruct))
  | [] => some (.error .fileIo)
  | l :: _ =>
    (bannerWord l 0).bind fun banner =>
    (bannerWord l 1).bind fun mtx0 =>
    (bannerWord l 2).bind fun fmt0 =>
    (bannerWord l 3).bind fun dtype0 =>
    (bannerWord l 4).bind fun dstruct0 =>
    let mtx := lowerWord mtx0
    let fmt := lowerWord fmt0
    let dtype := lowerWord dtype0
    let dstruct := lowerWord dstruct0
    if (!hasPrefix "%%MatrixMarket" banner || !hasPrefix "matrix" mtx) = true then
      some (.error .fileIo)
    else
    match (if hasPrefix "coordinate" fmt then some MMFmt.coo
           else if hasPrefix "array" fmt then some MMFmt.dns else none) with
    | none => some (.error .fileIo)
    | some f =>
    match (if hasPrefix "real" dtype then some MMType.real
           else if (cplx && hasPrefix "complex" dtype) = true then some MMType.complex
           else none) with
    | none => some (.error .fileIo)
    | some t =>
    match (if hasPrefix "general" dstruct then some MMStruct.general
           else if hasPrefix "symmetric" dstruct then some MMStruct.symm
           else if (cplx && hasPrefix "hermitian" dstruct) = true then some MMStruct.herm
           else none) with
    | none => some (.error .fileIo)
    | some st => some (.ok (f, t, st))

/-- `do { fgets } while( buf[0]=='%' )` (lis_input_mm.c:424-431): the first line that is not a
comment, and what follows it; `none` at end of file. -/
def mmSkip : List (Line K) → Option (Line K × List (Line K))
  | [] => none
  | l :: rest => if l.pct then mmSkip rest else some (l, rest)

/-- the values assigned by `sscanf(buf,"%d %d …")`: it stops at the first word that is not an
integer -/
def scanInts : ℕ → List (Word K) → List ℤ
  | 0, _ => []
  | _ + 1, [] => []
  | k + 1, w :: ws => match w.int? with
    | none => []
    | some z => z :: scanInts k ws

/-- what `lis_input_mm_size` leaves in `nr, nc, nnz, isb, isx, isbin` -/
structure MMSize where
  nr : ℤ
  nc : ℤ
  nnz : ℤ
  isb : ℤ
  isx : ℤ
  isbin : ℤ

/-- `lis_input_mm_size` (lis_input_mm.c:414-462), the file being positioned after the banner;
`junk` are the values of the caller's uninitialised variables, which stay when the size line has
too few numbers. -/
def mmSize (junk : ℕ → ℤ) (file : List (Line K)) : Except Err (MMSize × List (Line K)) :=
  match mmSkip file with
  | none => .error .fileIo
  | some (l, rest) =>
    let v := scanInts 6 l.words
    let g := fun k => v.getD k (junk k)
    let s : MMSize :=
      if v.length = 2 then ⟨g 0, g 1, g 0 * g 1, 0, 0, 0⟩
      else if v.length = 3 then ⟨g 0, g 1, g 2, 0, 0, 0⟩
      else if v.length = 5 then ⟨g 0, g 1, g 2, g 3, g 4, 0⟩
      else ⟨g 0, g 1, g 2, g 3, g 4, g 5⟩
    if s.nr ≠ s.nc then .error .fileIo else .ok (s, rest)

/-- `for(i=0;i<k;i++) { if( fgets()==NULL || sscanf()!=… ) return LIS_ERR_FILE_IO; …f… }`: the
reading loops of lis_input_mm.c (781-853, 922-1034; 178-236; 509-554, 595-668) -/
def readLoop {α σ : Type} (scan : Line K → Option α) (f : α → σ → Option σ) :
    ℕ → List (Line K) → σ → Option (Except Err (σ × List (Line K)))
  | 0, file, s => some (.ok (s, file))
  | _ + 1, [], _ => some (.error .fileIo)
  | k + 1, l :: rest, s => match scan l with
    | none => some (.error .fileIo)
    | some a => (f a s).bind (readLoop scan f k rest)

/-- `sscanf(buf,"%d %d %lg",&ridx,&cidx,&re)` / `sscanf(buf,"%d %d %lg %lg",…,&re,&im)`
(lis_input_mm.c:806-834, 949-977); for a real file `im` is not read and not used. -/
def scanMat (t : MMType) (l : Line K) : Option (ℤ × ℤ × K × Option K) :=
  match l.words with
  | a :: b :: x :: ws =>
    match a.int?, b.int?, x.num? with
    | some i, some j, some re =>
      match t with
      | .real => some (i, j, re, none)
      | .complex => match ws with
        | y :: _ => match y.num? with
          | some im => some (i, j, re, some im)
          | none => none
        | [] => none
    | _, _, _ => none
  | _ => none

/-- value stored at `(cidx,ridx)` (lis_input_mm.c:1000-1012) -/
def mirVal (io : NumIO K R) (re : K) : Option K → R
  | none => io.re re
  | some im => io.cx re im

/-- value stored at `(ridx,cidx)` (lis_input_mm.c:1018-1034) -/
def dirVal (io : NumIO K R) (st : MMStruct) (re : K) : Option K → R
  | none => io.re re
  | some im => if st = .herm then io.cxc re im else io.cx re im

/-- `mmstruct==MM_SYMM || mmstruct==MM_HERM` (lis_input_mm.c:838, 862, 994); in the real build
MM_HERM does not occur. -/
def MMStruct.mirrors : MMStruct → Bool
  | .general => false
  | _ => true

/-- body of the counting pass (lis_input_mm.c:836-852) -/
def mmCountStep (st : MMStruct) (is ie : ℕ) (e : ℤ × ℤ × K × Option K) (s : Arr ℕ × Arr ℕ) :
    Option (Arr ℕ × Arr ℕ) :=
  let ridx := e.1
  let cidx := e.2.1
  (if (st.mirrors && ridx != cidx) = true then
    if (is : ℤ) < cidx ∧ cidx ≤ ie then do
      let w ← s.2.rdI (cidx - is - 1)
      s.2.wrI (cidx - is - 1) (w + 1)
    else some s.2
  else some s.2).bind fun work =>
  if (is : ℤ) < ridx ∧ ridx ≤ ie then do
    let p ← s.1.rdI (ridx - is)
    let ptr ← s.1.wrI (ridx - is) (p + 1)
    pure (ptr, work)
  else pure (s.1, work)

/-- body of the storing pass (lis_input_mm.c:979-1039); `s` = work, index, value -/
def mmStoreStep (io : NumIO K R) (st : MMStruct) (is ie : ℕ) (ptr : Arr ℕ)
    (e : ℤ × ℤ × K × Option K) (s : Arr ℕ × Arr ℤ × Arr R) : Option (Arr ℕ × Arr ℤ × Arr R) :=
  let ridx := e.1 - 1
  let cidx := e.2.1 - 1
  let re := e.2.2.1
  let im := e.2.2.2
  (if (st.mirrors && ridx != cidx) = true then
    if (is : ℤ) ≤ cidx ∧ cidx < ie then do
      let p ← ptr.rdI (cidx - is)
      let w ← s.1.rdI (cidx - is)
      let value ← s.2.2.wr (p + w) (mirVal io re im)
      let index ← s.2.1.wr (p + w) ridx
      let work ← s.1.wrI (cidx - is) (w + 1)
      pure (work, index, value)
    else some s
  else some s).bind fun s =>
  if (is : ℤ) ≤ ridx ∧ ridx < ie then do
    let p ← ptr.rdI (ridx - is)
    let w ← s.1.rdI (ridx - is)
    let value ← s.2.2.wr (p + w) (dirVal io st re im)
    let index ← s.2.1.wr (p + w) cidx
    let work ← s.1.wrI (ridx - is) (w + 1)
    pure (work, index, value)
  else some s

/-- the local CSR rows handed to `lis_matrix_set_csr` (lis_input_mm.c:1044); column indices are
still the file's, minus one, and have not been checked. -/
structure MMCsr (R : Type) where
  n : ℕ
  nnz : ℕ
  ptr : Arr ℕ
  index : Arr ℤ
  value : Arr R

/-- `lis_input_mm_csr` (lis_input_mm.c:698-1050) up to and including `lis_matrix_set_csr`, on the
process owning rows `is ≤ i < ie`; `data` is the file after the size line and `nnz` the announced
number of entries.  The second pass re-reads the file from the start (rewind, skip banner and
comments), which brings it back to `data`. -/
def mmCsrRows [Zero R] (io : NumIO K R) (t : MMType) (st : MMStruct) (is ie : ℕ) (nnz : ℤ)
    (data : List (Line K)) (jI : ℕ → ℕ) (jZ : ℕ → ℤ) (jR : ℕ → R) :
    Option (Except Err (MMCsr R × List (Line K))) :=
  let n := ie - is
  (loop 0 (n + 1) (Arr.malloc (n + 1) jI, Arr.malloc (n + 1) jI) fun i s => do
    let ptr ← s.1.wr i 0
    let work ← s.2.wr i 0
    pure (ptr, work)).bind fun s =>
  (readLoop (scanMat t) (mmCountStep st is ie) nnz.toNat data s).bind fun res =>
  match res with
  | .error e => some (.error e)
  | .ok ((ptr, work), _) =>
  (ptr.wr 0 0).bind fun ptr =>
  (loop 0 n (ptr, work) fun i s => do
    let p1 ← s.1.rd (i + 1)
    let p0 ← s.1.rd i
    let w ← s.2.rd i
    let ptr ← if st.mirrors then s.1.wr (i + 1) (p1 + (p0 + w)) else s.1.wr (i + 1) (p1 + p0)
    let work ← s.2.wr i 0
    pure (ptr, work)).bind fun s =>
  (s.1.rd n).bind fun total =>
  (loop 0 n (Arr.malloc total jZ, Arr.malloc total jR) fun i t =>
    (s.1.rd i).bind fun lo => (s.1.rd (i + 1)).bind fun hi =>
    loop lo hi t fun j t => do
      let index ← t.1.wr j 0
      let value ← t.2.wr j 0
      pure (index, value)).bind fun t' =>
  (readLoop (scanMat t) (mmStoreStep io st is ie s.1) nnz.toNat data (s.2, t'.1, t'.2)).bind fun res =>
  match res with
  | .error e => some (.error e)
  | .ok ((_, index, value), rest) =>
  some (.ok (⟨n, total, s.1, index, value⟩, rest))

/-- `sscanf(buf,"%d %lg",…)` / `sscanf(buf,"%d %lg %lg",…)` (lis_input_mm.c:201-227) -/
def scanVec (t : MMType) (l : Line K) : Option (ℤ × K × Option K) :=
  match l.words with
  | a :: x :: ws =>
    match a.int?, x.num? with
    | some i, some re =>
      match t with
      | .real => some (i, re, none)
      | .complex => match ws with
        | y :: _ => match y.num? with
          | some im => some (i, re, some im)
          | none => none
        | [] => none
    | _, _ => none
  | _ => none

/-- reading `b` (lis_input_mm.c:178-254): `lis_vector_set_size` gives zeros, then one line per row;
the state also holds the last `idx`, `re`, `im`, which stay in the function's local variables. -/
def mmReadB [Zero R] (io : NumIO K R) (t : MMType) (is ie : ℕ) (gn : ℕ) (last : ℤ × K × K)
    (data : List (Line K)) : Option (Except Err ((Arr R × (ℤ × K × K)) × List (Line K))) :=
  readLoop (scanVec t) (fun e (s : Arr R × (ℤ × K × K)) =>
    let idx := e.1 - 1
    let last : ℤ × K × K := (idx, e.2.1, e.2.2.getD s.2.2.2)
    if (is : ℤ) ≤ idx ∧ idx < ie then do
      let v ← s.1.wrI (idx - is) (mirVal io e.2.1 e.2.2)
      pure (v, last)
    else pure (s.1, last)) gn data (⟨ie - is, fun _ => 0⟩, last)

/-- reading `x` (lis_input_mm.c:255-316).  For a complex file the line is read by `fgets` but there
is no `sscanf`: `idx`, `re`, `im` keep their previous values and `idx` is decremented. -/
def mmReadX [Zero R] (io : NumIO K R) (t : MMType) (is ie : ℕ) (gn : ℕ) (last : ℤ × K × K)
    (data : List (Line K)) : Option (Except Err ((Arr R × (ℤ × K × K)) × List (Line K))) :=
  match t with
  | .real => mmReadB io t is ie gn last data
  | .complex => readLoop (fun _ => some ()) (fun _ (s : Arr R × (ℤ × K × K)) =>
      let idx := s.2.1 - 1
      let last : ℤ × K × K := (idx, s.2.2)
      if (is : ℤ) ≤ idx ∧ idx < ie then do
        let v ← s.1.wrI (idx - is) (io.cx s.2.2.1 s.2.2.2)
        pure (v, last)
      else pure (s.1, last)) gn data (⟨ie - is, fun _ => 0⟩, last)

/-- `lis_input_mm_vec` (lis_input_mm.c:146-318): the two vectors, `none` where the file has none.
`last` are the uninitialised `idx`, `re`, `im`. -/
def mmVec [Zero R] (io : NumIO K R) (t : MMType) (is ie : ℕ) (gn : ℕ) (isb isx : ℤ)
    (last : ℤ × K × K) (data : List (Line K)) :
    Option (Except Err (Option (Arr R) × Option (Arr R))) :=
  if isb = 0 ∧ isx = 0 then some (.ok (none, none))
  else
  (if isb ≠ 0 then
    (mmReadB io t is ie gn last data).map fun r => r.map fun p => ((some p.1.1, p.1.2), p.2)
   else some (.ok ((none, last), data))).bind fun r =>
  match r with
  | .error e => some (.error e)
  | .ok ((b, last), data) =>
  (if isx ≠ 0 then
    (mmReadX io t is ie gn last data).map fun r => r.map fun p => (some p.1.1 : Option (Arr R))
   else some (.ok none)).bind fun r =>
  match r with
  | .error e => some (.error e)
  | .ok x => some (.ok (b, x))

/-- uninitialised memory and variables of one call -/
structure MMJunk (K R : Type) where
  size : ℕ → ℤ
  nat : ℕ → ℕ
  int : ℕ → ℤ
  val : ℕ → R
  last : ℤ × K × K

/-- `lis_input_mm_csr` (lis_input_mm.c:698-1069), serial build (`is=0`, `ie=n=gn=nr`), on an
unassembled matrix; `vecs` = `b!=NULL && x!=NULL`.  `lis_matrix_set_size(A,0,nr)` rejects `nr ≤ 0`
(lis_matrix.c:253-269).  A failing `lis_input_mm_vec` frees `work` twice (1055-1064): undefined.
`isbin≠0` (binary file) is not modelled: `none`. -/
def mmCsr [Zero R] (io : NumIO K R) (t : MMType) (st : MMStruct) (vecs : Bool) (J : MMJunk K R)
    (file : List (Line K)) :
    Option (Except Err (MMCsr R × Option (Arr R) × Option (Arr R))) :=
  match mmSize J.size file with
  | .error e => some (.error e)
  | .ok (sz, data) =>
  if sz.nr ≤ 0 then some (.error .illArg)
  else if sz.isbin ≠ 0 then none
  else
  (mmCsrRows io t st 0 sz.nr.toNat sz.nnz data J.nat J.int J.val).bind fun r =>
  match r with
  | .error e => some (.error e)
  | .ok (A, rest) =>
  if vecs then
    (mmVec io t 0 sz.nr.toNat sz.nr.toNat sz.isb sz.isx J.last rest).bind fun r =>
    match r with
    | .error _ => none
    | .ok (b, x) => some (.ok (A, b, x))
  else some (.ok (A, none, none))

/-- `sscanf(buf,"%lg",…)` / `sscanf(buf,"%lg %lg",…)` (lis_input_mm.c:619-648) -/
def scanVal (t : MMType) (l : Line K) : Option (K × Option K) :=
  match l.words with
  | x :: ws =>
    match x.num? with
    | some re =>
      match t with
      | .real => some (re, none)
      | .complex => match ws with
        | y :: _ => match y.num? with
          | some im => some (re, some im)
          | none => none
        | [] => none
    | none => none
  | _ => none

/-- `lis_input_mm_dns` (lis_input_mm.c:464-695), serial build: `nr*nc` values, stored in the order
of the file.  The structure word of the banner is not looked at. -/
def mmDns [Zero R] (io : NumIO K R) (t : MMType) (J : MMJunk K R) (file : List (Line K)) :
    Option (Except Err (ℕ × Arr R)) :=
  match mmSize J.size file with
  | .error e => some (.error e)
  | .ok (sz, data) =>
  if sz.nr ≤ 0 then some (.error .illArg)
  else if sz.isbin ≠ 0 then none
  else
  let cnt := (sz.nr * sz.nc).toNat
  (readLoop (scanVal t) (fun _ (s : Unit) => some s) cnt data ()).bind fun r =>
  match r with
  | .error e => some (.error e)
  | .ok _ =>
  (loop 0 cnt (Arr.malloc cnt J.val) fun i v => v.wr i 0).bind fun v =>
  (readLoop (scanVal t) (fun e (s : ℕ × Arr R) => do
      let v ← s.2.wr s.1 (mirVal io e.1 e.2)
      pure (s.1 + 1, v)) cnt data (0, v)).bind fun r =>
  match r with
  | .error e => some (.error e)
  | .ok ((_, v), _) => some (.ok (sz.nr.toNat, v))

/-- result of `lis_input_mm`: the storage given to the matrix, and the vectors -/
inductive MMRes (R : Type)
  | csr (A : MMCsr R) (b x : Option (Arr R))
  | dns (n : ℕ) (value : Arr R)

/-- `lis_input_mm` (lis_input_mm.c:60-144) before the conversion to the matrix's own storage
format (for which see the conversion functions); vectors of an `array` file are not modelled. -/
def mmInput [Zero R] (io : NumIO K R) (cplx vecs : Bool) (J : MMJunk K R) (file : List (Line K)) :
    Option (Except Err (MMRes R)) :=
  (mmBanner cplx file).bind fun r =>
  match r with
  | .error e => some (.error e)
  | .ok (.coo, t, st) =>
    (mmCsr io t st vecs J file.tail).bind fun r =>
    match r with
    | .error e => some (.error e)
    | .ok (A, b, x) => some (.ok (.csr A b x))
  | .ok (.dns, t, _) =>
    (mmDns io t J file.tail).bind fun r =>
    match r with
    | .error e => some (.error e)
    | .ok (n, v) => some (.ok (.dns n v))

/-! ### writing -/

/-- how `fprintf` writes: `%d`, `%28.20e`, and a blank-free literal word -/
structure Printer (K : Type) where
  int : ℤ → Word K
  num : K → Word K
  word : String → Word K

/-- real and imaginary part of a scalar (`creal`, `cimag`), for the writer -/
structure Parts (K R : Type) where
  re : R → K
  im : R → K

/-- `lis_output_mm_header` (lis_output_mm.c:405-474, serial, LIS_FMT_MM): banner and size line -/
def mmHeader (pr : Printer K) (cplx : Bool) (gn nnz : ℕ) (isb isx : Bool) : List (Line K) :=
  [⟨true, [pr.word "%%MatrixMarket", pr.word "matrix", pr.word "coordinate",
      pr.word (if cplx then "complex" else "real"), pr.word "general"]⟩,
   ⟨false, if (!isb && !isx) = true then [pr.int gn, pr.int gn, pr.int nnz]
      else [pr.int gn, pr.int gn, pr.int nnz, pr.int (if isb then 1 else 0),
        pr.int (if isx then 1 else 0)]⟩]

/-- the number part of a line: `%28.20e` or `%28.20e %28.20e` -/
def numWords (pr : Printer K) (pt : Parts K R) (cplx : Bool) (v : R) : List (Word K) :=
  if cplx then [pr.num (pt.re v), pr.num (pt.im v)] else [pr.num (pt.re v)]

/-- `lis_output_mm_vec` (lis_output_mm.c:225-318), one vector: lines `i+1 value[i]`, where the
values come from `src` -/
def mmVecLines (pr : Printer K) (pt : Parts K R) (cplx : Bool) (n : ℕ) (src : Arr R) :
    Option (List (Line K)) :=
  loop 0 n [] fun i (acc : List (Line K)) => do
    let v ← src.rd i
    pure (acc ++ [⟨false, pr.int (i + 1) :: numWords pr pt cplx v⟩])

/-- `lis_output_mm_csr` (lis_output_mm.c:623-725, serial, LIS_FMT_MM, CSR matrix) with
`lis_output_mm_vec`.  `none` as a vector means `lis_vector_is_null`.  In the builds without
`_LONG__LONG` the lines of `x` are written from `b->value` (lis_output_mm.c:297, 303): when `b` is
null that dereferences a null pointer. -/
def mmOutput (pr : Printer K) (pt : Parts K R) (cplx : Bool) (A : Csr R) (b x : Option (Arr R)) :
    Option (List (Line K)) :=
  (loop 0 A.n [] fun i (acc : List (Line K)) => do
    let lo ← A.ptr.rd i
    let hi ← A.ptr.rd (i + 1)
    loop lo hi acc fun j (acc : List (Line K)) => do
      let jj ← A.index.rd j
      let v ← A.value.rd j
      pure (acc ++ [⟨false, pr.int (i + 1) :: pr.int (jj + 1) :: numWords pr pt cplx v⟩])).bind
    fun lines =>
  (match b with
   | none => some []
   | some bv => mmVecLines pr pt cplx A.n bv).bind fun bl =>
  (match x with
   | none => some []
   | some _ => match b with
     | none => if A.n = 0 then some [] else none
     | some bv => mmVecLines pr pt cplx A.n bv).bind fun xl =>
  some (mmHeader pr cplx A.n A.nnz b.isSome x.isSome ++ lines ++ bl ++ xl)

end Lis
