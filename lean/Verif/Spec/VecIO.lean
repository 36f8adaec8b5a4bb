import Verif.Model.VecIO
import Verif.Spec.MMIO

/-
What a vector file means, independently of how the reader works.
-/
namespace Lis
variable {K R : Type}

/-- element `i` (0-based) of the vector given by the list `E` of (1-based position, value) pairs:
the value listed last for it, 0 when none is listed -/
def listedAt [Zero R] (E : List (ℤ × R)) (i : ℕ) : R :=
  (((E.filter fun e => e.1 = (i : ℤ) + 1).getLast?).map Prod.snd).getD 0

/-- line `l` is the banner `%%MatrixMarket vector coordinate|array <type> general`, the last four
words in any mixture of upper and lower case -/
def VecBanner (l : Line K) (t : MMType) : Prop :=
  ∃ m fw tw sw, l.words.map Word.txt = ["%%MatrixMarket".toList, m, fw, tw, sw] ∧
    m.map Char.toLower = "vector".toList ∧
    (fw.map Char.toLower = "coordinate".toList ∨ fw.map Char.toLower = "array".toList) ∧
    tw.map Char.toLower = t.word.toList ∧ sw.map Char.toLower = "general".toList

/-- a Matrix Market vector file of type `t` for a vector of length `E.length`: banner, comments, size
line, one line per element of `E`, then `rest` -/
def VecFile (io : NumIO K R) (t : MMType) (file : List (Line K)) (E : List (ℤ × R)) : Prop :=
  ∃ b comments sz data rest, file = b :: (comments ++ sz :: (data ++ rest)) ∧ VecBanner b t ∧
    (∀ l ∈ comments, l.pct = true) ∧ sz.pct = false ∧
    (∃ w ws, sz.words = w :: ws ∧ w.int? = some (E.length : ℤ)) ∧
    List.Forall₂ (fun l (e : ℤ × R) => VecLine io t l e.1 e.2) data E

/-- the line has exactly one word, the number `x` -/
def OneNumber (l : Line K) (x : K) : Prop := ∃ w, l.words = [w] ∧ w.num? = some x

end Lis
