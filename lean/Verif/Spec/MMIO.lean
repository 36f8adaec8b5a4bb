import Verif.Base.Sum
import Verif.Model.MMIO
import Mathlib.Algebra.Star.Basic

/-
What a Matrix Market file means, independently of how the reader works.
-/
namespace Lis
open Finset
variable {K R : Type}

/-- an entry of a coordinate file: row and column (1-based) and value -/
structure MMEnt (R : Type) where
  r : ℤ
  c : ℤ
  v : R

/-- matrix (0-based) of a `general` file: repeated entries add up -/
def mmGeneral [AddCommMonoid R] (E : List (MMEnt R)) (i j : ℤ) : R :=
  (E.map fun e => if e.r = i + 1 ∧ e.c = j + 1 then e.v else 0).sum

/-- what the listed off-diagonal entries contribute to their mirror position, through `f` -/
def mmMirror [AddCommMonoid R] (f : R → R) (E : List (MMEnt R)) (i j : ℤ) : R :=
  (E.map fun e => if e.r ≠ e.c ∧ e.c = i + 1 ∧ e.r = j + 1 then f e.v else 0).sum

/-- matrix of a `symmetric` file -/
def mmSymmetric [AddCommMonoid R] (E : List (MMEnt R)) (i j : ℤ) : R :=
  mmGeneral E i j + mmMirror id E i j

/-- matrix of a `hermitian` file: the mirror entry is the complex conjugate -/
def mmHermitian [AddCommMonoid R] [Star R] (E : List (MMEnt R)) (i j : ℤ) : R :=
  mmGeneral E i j + mmMirror star E i j

/-- the matrix of a coordinate file with the given structure word -/
def mmMatrix [AddCommMonoid R] [Star R] (st : MMStruct) (E : List (MMEnt R)) (i j : ℤ) : R :=
  match st with
  | .general => mmGeneral E i j
  | .symm => mmSymmetric E i j
  | .herm => mmHermitian E i j

/-- line `l` of a file of type `t` lists entry `e` -/
def EntryLine (io : NumIO K R) (t : MMType) (l : Line K) (e : MMEnt R) : Prop :=
  ∃ a b x ws re, l.words = a :: b :: x :: ws ∧ a.int? = some e.r ∧ b.int? = some e.c ∧
    x.num? = some re ∧
    match t with
    | .real => e.v = io.re re
    | .complex => ∃ y ws' im, ws = y :: ws' ∧ y.num? = some im ∧ e.v = io.cx re im

/-- line `l` lists element `i` (1-based) of a vector, with value `v` -/
def VecLine (io : NumIO K R) (t : MMType) (l : Line K) (i : ℤ) (v : R) : Prop :=
  ∃ a x ws re, l.words = a :: x :: ws ∧ a.int? = some i ∧ x.num? = some re ∧
    match t with
    | .real => v = io.re re
    | .complex => ∃ y ws' im, ws = y :: ws' ∧ y.num? = some im ∧ v = io.cx re im

/-- the size line: `N N M`, or `N N M isb isx` -/
def SizeLine (l : Line K) (N M : ℤ) (isb isx : Bool) : Prop :=
  l.pct = false ∧
  ∃ a b c, a.int? = some N ∧ b.int? = some N ∧ c.int? = some M ∧
    ((isb = false ∧ isx = false ∧ l.words = [a, b, c]) ∨
      ∃ d e, d.int? = some (if isb then 1 else 0) ∧ e.int? = some (if isx then 1 else 0) ∧
        l.words = [a, b, c, d, e])

/-- the part of a coordinate file after the banner: comments, the size line for an `N × N` matrix,
one line per entry of `E`, then `rest` -/
def CoordFile (io : NumIO K R) (t : MMType) (file : List (Line K)) (N : ℤ) (isb isx : Bool)
    (E : List (MMEnt R)) (rest : List (Line K)) : Prop :=
  ∃ comments sz data, file = comments ++ sz :: (data ++ rest) ∧ (∀ l ∈ comments, l.pct = true) ∧
    SizeLine sz N E.length isb isx ∧ List.Forall₂ (EntryLine io t) data E

/-- the rows are a valid CSR structure -/
structure MMCsr.WF (A : MMCsr R) : Prop where
  ptr : PtrWF A.n A.nnz A.ptr
  isz : A.nnz ≤ A.index.size
  vsz : A.nnz ≤ A.value.size

/-- entry `(i,j)` of the stored rows -/
def MMCsr.entry [AddCommMonoid R] (A : MMCsr R) (i : ℕ) (j : ℤ) : R :=
  ∑ k ∈ Ico (A.ptr.get i) (A.ptr.get (i + 1)), if A.index.get k = j then A.value.get k else 0

end Lis

namespace Lis
variable {K R : Type}

/-- the type word of the banner -/
def MMType.word : MMType → String
  | .real => "real"
  | .complex => "complex"

/-- the structure word of the banner -/
def MMStruct.word : MMStruct → String
  | .general => "general"
  | .symm => "symmetric"
  | .herm => "hermitian"

/-- the storage word of the banner -/
def MMFmt.word : MMFmt → String
  | .coo => "coordinate"
  | .dns => "array"

/-- line `l` is the banner `%%MatrixMarket matrix <fmt> <type> <struct>`, the last four words in
any mixture of upper and lower case -/
def BannerLine (l : Line K) (f : MMFmt) (t : MMType) (st : MMStruct) : Prop :=
  ∃ m fw tw sw, l.words.map Word.txt = ["%%MatrixMarket".toList, m, fw, tw, sw] ∧
    m.map Char.toLower = "matrix".toList ∧ fw.map Char.toLower = f.word.toList ∧
    tw.map Char.toLower = t.word.toList ∧ sw.map Char.toLower = st.word.toList

/-- line `l` lists the value `v` of an `array` file -/
def ValueLine (io : NumIO K R) (t : MMType) (l : Line K) (v : R) : Prop :=
  ∃ x ws re, l.words = x :: ws ∧ x.num? = some re ∧
    match t with
    | .real => v = io.re re
    | .complex => ∃ y ws' im, ws = y :: ws' ∧ y.num? = some im ∧ v = io.cx re im

end Lis
