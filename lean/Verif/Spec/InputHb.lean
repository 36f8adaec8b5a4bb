import Mathlib.Data.Nat.Digits.Defs
import Verif.Spec.Formats
import Verif.Base.C

/-!
# Harwell-Boeing files

What a Harwell-Boeing file says, in terms of its characters: a header of four or five lines, then the column pointers,
the row numbers and the values of a matrix stored by columns, in fields of fixed width, a fixed number per line.
All numbers in the file count from 1.
-/

namespace Lis
open Finset
variable {R : Type}

/-- `f` is the decimal number `m` -/
def Digits (f : List Char) (m : ℕ) : Prop :=
  ∃ ds : List ℕ, (∀ d ∈ ds, d < 10) ∧ ds ≠ [] ∧ f = ds.map Nat.digitChar ∧ Nat.ofDigits 10 ds.reverse = m

/-- `f` is the decimal number `m` with blanks in front -/
def NumField (f : List Char) (m : ℕ) : Prop :=
  ∃ b g, f = List.replicate b ' ' ++ g ∧ Digits g m

/-- the text `s` starts with the numbers `vs`, each of at most 13 digits, and separated; `rest` is what follows -/
def Numbers : List ℕ → List Char → List Char → Prop
  | [], s, rest => s = rest
  | v :: vs, s, rest => ∃ b f s', s = List.replicate b ' ' ++ (f ++ s') ∧ Digits f v ∧ f.length ≤ 13 ∧
      (∀ c, s'.head? = some c → c = ' ' ∨ c = '\n') ∧ Numbers vs s' rest

/-- only blanks and the end of the line -/
def BlankText (s : List Char) : Prop := ∀ c ∈ s, c = ' ' ∨ c = '\n'

/-- line 2: total number of cards, and numbers of cards for pointers, row numbers, values, right hand sides (the last
may be missing) -/
def CardLine (l : List Char) (tot p i v r : ℕ) : Prop :=
  ∃ rest, Numbers [tot, p, i, v, r] l rest ∨ (r = 0 ∧ Numbers [tot, p, i, v] l rest ∧ BlankText rest)

/-- line 3: matrix type `RUA` (any case) and `n n nnz neltvl` -/
def TypeLine (l : List Char) (n nnz : ℕ) : Prop :=
  ∃ b w s e rest, l = List.replicate b ' ' ++ (w ++ ' ' :: s) ∧ w.map Char.toLower = ['r', 'u', 'a'] ∧
    Numbers [n, n, nnz, e] s rest

/-- an integer format: `cnt` fields of width `w` per line, such as `(16I5)` -/
def IntFmt (f : List Char) (cnt w : ℕ) : Prop :=
  ∃ b a x c t, f = List.replicate b ' ' ++ '(' :: (a ++ x :: (c ++ ')' :: t)) ∧ (x = 'I' ∨ x = 'i') ∧
    Digits a cnt ∧ Digits c w

/-- a format for real numbers: `cnt` fields of width `w` per line, such as `(5E16.8)`, `(3D25.16)`, `(3E26.16E3)`; no
scale factor -/
def RealFmt (f : List Char) (cnt w : ℕ) : Prop :=
  ∃ b a x c u t, f = List.replicate b ' ' ++ '(' :: (a ++ x :: (c ++ '.' :: (u ++ ')' :: t))) ∧
    Digits a cnt ∧ Digits c w ∧
    (((x = 'E' ∨ x = 'e') ∧ ∀ y ∈ u, y.isDigit ∨ y = 'E' ∨ y = 'e') ∨
     ((x = 'D' ∨ x = 'd') ∧ ∀ y ∈ u, y.isDigit))

/-- line 4: formats of pointers (columns 1-16), row numbers (17-32), values (33-52), right hand sides (53-72, may be
missing) -/
def FormatLine (l : List Char) (pf xf vf : ℕ × ℕ) : Prop :=
  ∃ p x v r, l = p ++ (x ++ (v ++ r)) ∧ p.length = 16 ∧ x.length = 16 ∧ v.length = 20 ∧
    IntFmt p pf.1 pf.2 ∧ IntFmt x xf.1 xf.2 ∧ RealFmt v vf.1 vf.2 ∧
    ('(' ∉ r.take 20 ∨ ∃ c w, RealFmt (r.take 20) c w)

/-- line 5 (only with right hand sides): its first word has at most 63 characters -/
def RhsLine (l : List Char) : Prop :=
  ∃ b w s, l = List.replicate b ' ' ++ (w ++ s) ∧ w ≠ [] ∧ (∀ c ∈ w, 33 ≤ c.toNat) ∧ w.length < 64 ∧ ∀ c, s.head? = some c → c = ' ' ∨ c = '\n'

/-- the lines contain the fields `fs`, `cnt` per line and all of width `w`; lines may go on after the last field -/
def Cards (cnt w : ℕ) : List (List Char) → List (List Char) → Prop
  | [], fs => fs = []
  | l :: ls, fs => (∃ tail, l = (fs.take cnt).flatten ++ tail) ∧ (∀ f ∈ fs.take cnt, f.length = w) ∧
      Cards cnt w ls (fs.drop cnt)

/-- `file` is a Harwell-Boeing file (real, unsymmetric, assembled) for an `n × n` matrix stored by columns with pointers
`P`, row numbers `I` (from 1) and values `V`, the numbers meant by the value fields being given by `num` -/
structure HbFile (num : List Char → R) (file : List (List Char)) (n : ℕ) (P I : List ℕ) (V : List R) : Prop where
  /-- lines are shorter than the reader's buffer and have no 0 characters -/
  lines : ∀ l ∈ file, l.length < 1024 ∧ '\x00' ∉ l
  parts : ∃ (title l2 l3 l4 : List Char) (l5 lp li lv more : List (List Char)) (tot r : ℕ) (pf xf vf : ℕ × ℕ)
      (fp fi fv : List (List Char)),
    file = title :: l2 :: l3 :: l4 :: (l5 ++ (lp ++ (li ++ (lv ++ more)))) ∧
    CardLine l2 tot lp.length li.length lv.length r ∧ TypeLine l3 n I.length ∧ FormatLine l4 pf xf vf ∧
    (if r = 0 then l5 = [] else ∃ l, l5 = [l] ∧ RhsLine l) ∧
    pf.2 < 128 ∧ xf.2 < 128 ∧ vf.2 < 128 ∧
    Cards pf.1 pf.2 lp fp ∧ Cards xf.1 xf.2 li fi ∧ Cards vf.1 vf.2 lv fv ∧
    List.Forall₂ NumField fp P ∧ List.Forall₂ NumField fi I ∧ V = fv.map num
  npos : 0 < n
  plen : P.length = n + 1
  vlen : V.length = I.length
  /-- the numbers describe a matrix -/
  first : P[0]? = some 1
  last : P[n]? = some (I.length + 1)
  mono : ∀ j, j < n → P.getD j 0 ≤ P.getD (j + 1) 0
  rows : ∀ i ∈ I, 1 ≤ i ∧ i ≤ n

/-- the matrix in the file: entry `(i,j)`, counted from 0, is the sum of the values listed in column `j` for row `i` -/
def hbMatrix [AddCommMonoid R] (P I : List ℕ) (V : List R) (i j : ℕ) : R :=
  ∑ k ∈ Ico (P.getD j 0 - 1) (P.getD (j + 1) 0 - 1), if I.getD k 0 = i + 1 then V.getD k 0 else 0

/-- no position is listed twice -/
def HbDistinct (n : ℕ) (P I : List ℕ) : Prop :=
  ∀ j, j < n → ∀ k l, P.getD j 0 - 1 ≤ k → k < P.getD (j + 1) 0 - 1 → P.getD j 0 - 1 ≤ l →
    l < P.getD (j + 1) 0 - 1 → I.getD k 0 = I.getD l 0 → k = l

end Lis
