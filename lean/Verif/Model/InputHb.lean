import Verif.Base.C
import Verif.Model.Assembly
import Verif.Model.Convert
import Verif.Spec.AnyMat

/-
Model of the Harwell-Boeing reader /repo/src/system/lis_input_hb.c (serial build, real scalars), and of the
choice of the file format in `lis_input` (/repo/src/system/lis_input.c:66-170).

A file is the list of the strings that successive `fgets(buf,BUFSIZE,file)` calls return.  Everything is modelled
on characters: the fixed columns, `strncpy`, `strchr`, `atoi`, `%d` and `%s`; only `atof` is a parameter.  `buf` keeps
the tail of earlier, longer lines, as in C.  Integers are unbounded; `printf` of the size is left out.  Complex files
(`c` in a `_COMPLEX` build) are not modelled.
-/
namespace Lis
variable {R : Type}

/-- `isspace` -/
def cSpace (c : Char) : Bool := c == ' ' || c == '\t' || c == '\n' || c == '\x0b' || c == '\x0c' || c == '\r'

/-- value of a string of decimal digits -/
def digitsVal (ds : List Char) : ℕ := ds.foldl (fun a c => 10 * a + (c.toNat - 48)) 0

/-- `atoi`: blanks, an optional sign, digits -/
def cAtoi (s : List Char) : ℤ :=
  match s.dropWhile cSpace with
  | '-' :: r => -(digitsVal (r.takeWhile Char.isDigit) : ℤ)
  | '+' :: r => digitsVal (r.takeWhile Char.isDigit)
  | r => digitsVal (r.takeWhile Char.isDigit)

/-- the unsigned part of `%14d`: digits within the field width `w`, and the unread rest -/
def scanU (w : ℕ) (s : List Char) : Option (ℕ × List Char) :=
  let ds := (s.take w).takeWhile Char.isDigit
  if ds = [] then none else some (digitsVal ds, s.drop ds.length)

/-- `%<w>d` in `sscanf`: the number and the unread rest -/
def scanD (w : ℕ) (s : List Char) : Option (ℤ × List Char) :=
  match s.dropWhile cSpace with
  | '-' :: r => (scanU (w - 1) r).map fun p => (-(p.1 : ℤ), p.2)
  | '+' :: r => (scanU (w - 1) r).map fun p => ((p.1 : ℤ), p.2)
  | r => (scanU w r).map fun p => ((p.1 : ℤ), p.2)

/-- `sscanf(s,"%<w>d%<w>d…")`: the values assigned -/
def scanDs (w : ℕ) : ℕ → List Char → List ℤ
  | 0, _ => []
  | k + 1, s => match scanD w s with
    | none => []
    | some (z, s) => z :: scanDs w k s

/-- `%s` in `sscanf`: the word and the unread rest -/
def scanS (s : List Char) : List Char × List Char :=
  let s := s.dropWhile cSpace
  (s.takeWhile fun c => !cSpace c, s.dropWhile fun c => !cSpace c)

/-- BUFSIZE (include/lis_io.h:31) -/
def hbBufSize : ℕ := 1024

/-- the contents of `buf` after `fgets` has stored the line `l` in it: beyond the terminating 0 the old characters
remain (lis_input_hb.c:170, 184, …) -/
def bufPut (b : ℕ → Char) (l : List Char) : ℕ → Char := fun i =>
  match l[i]? with
  | some c => c
  | none => if i = l.length then '\x00' else b i

/-- `strncpy(dat,&buf[p],w); dat[w] = '\0'`: the resulting string; undefined when it reads beyond `buf` -/
def cStr (b : ℕ → Char) : ℕ → ℕ → Option (List Char)
  | _, 0 => some []
  | p, w + 1 => if p < hbBufSize then
      if b p = '\x00' then some [] else (cStr b (p + 1) w).map (b p :: ·)
    else none

/-- `strchr(s,c)`: what precedes and what follows the first `c` -/
def cutAt (c : Char) : List Char → Option (List Char × List Char)
  | [] => none
  | x :: s => if x = c then some ([], s) else (cutAt c s).map fun p => (x :: p.1, p.2)

/-- `lis_input_hb_get_fmt` (lis_input_hb.c:104-142) on the string `tmp` copied from the line: `iter`, `width`.
`junk` are the uninitialised `*iter`, `*width` of the caller, which are kept when the function returns LIS_FAILS
(the caller ignores that).  Undefined (null pointer) when `)` or `.` is missing. -/
def getFmtStr (junk : ℤ × ℤ) (tmp : List Char) : Option (ℤ × ℤ) :=
  match cutAt '(' (tmp.map Char.toLower) with
  | none => some (0, 0)
  | some (_, s) => match cutAt ')' s with
    | none => none
    | some (s, _) => match cutAt 'i' s with
      | some (a, c) => some (cAtoi a, cAtoi c)
      | none => match (cutAt 'e' s).or (cutAt 'd' s) with
        | none => some junk
        | some (a, c) => match cutAt '.' s with
          | none => none
          | some (u, _) =>
            if u.length < a.length then some (cAtoi u, cAtoi c)
            else some (cAtoi a, cAtoi (c.take (u.length - a.length - 1)))

/-- `lis_input_hb_get_fmt(&buf[off],size,&iter,&width)` (lis_input_hb.c:104-142, 256-259) -/
def getFmt (junk : ℤ × ℤ) (b : ℕ → Char) (off size : ℕ) : Option (ℤ × ℤ) :=
  (cStr b off size).bind (getFmtStr junk)

/-- uninitialised memory of one call -/
structure HbJunk (R : Type) where
  buf : ℕ → Char
  fmt : ℕ → ℤ × ℤ
  ptr : ℕ → ℤ
  index : ℕ → ℤ
  value : ℕ → R

/-- what the header says -/
structure HbHead where
  ptrcrd : ℤ
  indcrd : ℤ
  valcrd : ℤ
  nrow : ℤ
  nnzero : ℤ
  fptr : ℤ × ℤ
  find : ℤ × ℤ
  fval : ℤ × ℤ

/-- line 3 (lis_input_hb.c:203-244): `some none` is LIS_ERR_FILE_IO, otherwise NROW and NNZERO; undefined when the
type word does not fit `char mtx[64]`.  `%d` has no field width: a width larger than the line is used. -/
def hbLine3 (l : List Char) : Option (Option (ℤ × ℤ)) :=
  let w := scanS l
  if 64 ≤ w.1.length then none
  else if w.1 = [] then some none
  else match scanDs (l.length + 14) 4 w.2 with
    | [nrow, ncol, nnzero, _] =>
      let mtx := w.1.map Char.toLower
      if mtx[0]? ≠ some 'r' then some none
      else if mtx[1]? ≠ some 'u' then some none
      else if mtx[2]? ≠ some 'a' then some none
      else if nrow ≠ ncol then some none
      else some (some (nrow, nnzero))
    | _ => some none

/-- line 5, only when RHSCRD is not 0 (lis_input_hb.c:271-300): undefined when the word does not fit `char mtx[64]`;
nothing of it is used -/
def hbLine5 (rhscrd : ℤ) (file : List (List Char)) : Option (Except Err (List (List Char))) :=
  if rhscrd ≠ 0 then
    match file with
    | [] => some (.error .fileIo)
    | l :: rest => if 64 ≤ (scanS l).1.length then none else some (.ok rest)
  else some (.ok file)

/-- the header (lis_input_hb.c:169-300): the values read, the buffer and the rest of the file -/
def hbHeader (J : HbJunk R) : List (List Char) → Option (Except Err (HbHead × (ℕ → Char) × List (List Char)))
  | l1 :: l2 :: file2 =>
    match scanDs 14 5 l2 with
    | _ :: ptrcrd :: indcrd :: valcrd :: more =>
      match file2 with
      | [] => some (.error .fileIo)
      | l3 :: file3 =>
        (hbLine3 l3).bind fun r =>
        match r with
        | none => some (.error .fileIo)
        | some (nrow, nnzero) =>
        match file3 with
        | [] => some (.error .fileIo)
        | l4 :: file4 =>
          let b := bufPut (bufPut (bufPut (bufPut J.buf l1) l2) l3) l4
          (getFmt (J.fmt 0) b 0 16).bind fun fptr =>
          (getFmt (J.fmt 1) b 16 16).bind fun find =>
          (getFmt (J.fmt 2) b 32 20).bind fun fval =>
          (getFmt (J.fmt 3) b 52 20).bind fun _ =>
          (hbLine5 (more.headD 0) file4).map fun r => r.map fun file5 =>
            (⟨ptrcrd, indcrd, valcrd, nrow, nnzero, fptr, find, fval⟩,
              (if more.headD 0 ≠ 0 then bufPut b (file4.headD []) else b), file5)
    | _ => some (.error .fileIo)
  | _ => some (.error .fileIo)

/-- the fields of one line: `for(j=0;j<iter&&k<lim;j++) { strncpy(dat,p,w); …; p += w; k++; }`
(lis_input_hb.c:325-332); undefined when the field does not fit `char dat[128]` -/
def hbRow {σ : Type} (b : ℕ → Char) (w : ℤ) (lim : ℕ) (put : ℕ → List Char → σ → Option σ) :
    ℕ → ℕ → ℕ → σ → Option (ℕ × σ)
  | 0, _, k, s => some (k, s)
  | j + 1, p, k, s =>
    if k < lim then
      if 0 ≤ w ∧ w < 128 then
        (cStr b p w.toNat).bind fun f => (put k f s).bind fun s => hbRow b w lim put j (p + w.toNat) (k + 1) s
      else none
    else some (k, s)

/-- `cards` lines of fields (lis_input_hb.c:316-333, 335-352, 354-396) -/
def hbCards {σ : Type} (fmt : ℤ × ℤ) (lim : ℕ) (put : ℕ → List Char → σ → Option σ) :
    ℕ → (ℕ → Char) → List (List Char) → ℕ → σ → Option (Except Err (σ × (ℕ → Char) × List (List Char)))
  | 0, b, file, _, s => some (.ok (s, b, file))
  | _ + 1, _, [], _, _ => some (.error .fileIo)
  | c + 1, b, l :: file, k, s =>
    (hbRow (bufPut b l) fmt.2 lim put fmt.1.toNat 0 k s).bind fun r =>
      hbCards fmt lim put c (bufPut b l) file r.1 r.2

/-- the arrays given to `lis_matrix_set_csc` (lis_input_hb.c:421) -/
structure HbRaw (R : Type) where
  n : ℕ
  nnz : ℕ
  ptr : Arr ℤ
  index : Arr ℤ
  value : Arr R

/-- `lis_input_hb_csr` up to `lis_matrix_set_csc` (lis_input_hb.c:147-421).  `lis_matrix_set_size` refuses sizes below 1
(lis_matrix.c:258-270); a negative number of elements cannot be allocated (lis_matrix_csr.c:185-191). -/
def hbRead (atof : List Char → R) (J : HbJunk R) (file : List (List Char)) : Option (Except Err (HbRaw R)) :=
  (hbHeader J file).bind fun r =>
  match r with
  | .error e => some (.error e)
  | .ok (h, b, file) =>
  if h.nrow ≤ 0 then some (.error .illArg)
  else if h.nnzero < 0 then some (.error .outOfMemory)
  else
  let n := h.nrow.toNat
  let nnz := h.nnzero.toNat
  (hbCards h.fptr (n + 1) (fun k f (a : Arr ℤ) => a.wr k (cAtoi f - 1)) h.ptrcrd.toNat b file 0
    (Arr.malloc (n + 1) J.ptr)).bind fun r =>
  match r with
  | .error e => some (.error e)
  | .ok (ptr, b, file) =>
  (hbCards h.find nnz (fun k f (a : Arr ℤ) => a.wr k (cAtoi f - 1)) h.indcrd.toNat b file 0
    (Arr.malloc nnz J.index)).bind fun r =>
  match r with
  | .error e => some (.error e)
  | .ok (index, b, file) =>
  (hbCards h.fval nnz (fun k f (a : Arr R) => a.wr k (atof f)) h.valcrd.toNat b file 0
    (Arr.malloc nnz J.value)).bind fun r =>
  match r with
  | .error e => some (.error e)
  | .ok (value, _, _) => some (.ok ⟨n, nnz, ptr, index, value⟩)

/-- the matrix set by `lis_matrix_set_csc` and `lis_matrix_assemble` (lis_input_hb.c:421-427), which look at none of the
numbers.  Simplified: a negative pointer or row number, which makes later users of the matrix read or write before an
array, counts as undefined here already. -/
def HbRaw.csc (A : HbRaw R) : Option (Csc R) :=
  if (∀ k, k < A.n + 1 → 0 ≤ A.ptr.get k) ∧ (∀ k, k < A.nnz → 0 ≤ A.index.get k) then
    some ⟨A.n, A.n, A.nnz, ⟨A.ptr.size, fun k => (A.ptr.get k).toNat⟩, ⟨A.index.size, fun k => (A.index.get k).toNat⟩, A.value⟩
  else none

/-- `lis_input_hb` (lis_input_hb.c:59-102, 430-447): the matrix in storage format `t` (the type of `A` before the
call), through CSC and CSR -/
def inputHb [Zero R] [DecidableEq R] (atof : List Char → R) (J : HbJunk R) (C : ConvJunk R) (a : ConvArgs) (t : Fmt)
    (file : List (List Char)) : Option (Except Err (AnyMat R)) :=
  (hbRead atof J file).bind fun r =>
  match r with
  | .error e => some (.error e)
  | .ok raw =>
  raw.csc.bind fun A =>
  if t = .csc then some (.ok (.csc A))
  else
  (csc2csr C.i1 C.v1 A).bind fun B =>
  if t = .csr then some (.ok (.csr B))
  else
  (matrixConvert C a t (.csr B)).bind fun r =>
  match r with
  | (.success, _, some B) => some (.ok B)
  | (e, _, _) => some (.error e)

/-- `lis_input` (lis_input.c:98-130): is the file taken for a Matrix Market file?  The first 255 characters of the
first line are looked at; `junk` is the uninitialised `banner`, kept when they are blank.  Undefined when the word does
not fit `char banner[128]`. -/
def inputIsMM (junk : List Char) (file : List (List Char)) : Option (Except Err Bool) :=
  match file with
  | [] => some (.error .fileIo)
  | l :: _ =>
    let w := (scanS (l.take 255)).1
    if 128 ≤ w.length then none
    else
      let banner := if w = [] then junk else w
      some (.ok ("%%MatrixMarket".toList.isPrefixOf banner))

end Lis
