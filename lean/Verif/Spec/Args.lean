import Verif.Model.Args
import Mathlib.Data.List.SplitOn

/-! # What an option text means: its words, in lower case, taken two at a time -/

namespace Lis

/-- the maximal runs of non-blank characters -/
def words (l : List Char) : List (List Char) := (l.splitOnP isWs).filter (· ≠ [])

/-- consecutive pairs; a last odd element is dropped -/
def pairUp {α : Type} : List α → List (α × α)
  | a :: b :: r => (a, b) :: pairUp r
  | _ => []

/-- the name/value pairs of an option text -/
def optionPairs (text : List Char) : List (List Char × List Char) := pairUp (words (text.map Char.toLower))

end Lis
