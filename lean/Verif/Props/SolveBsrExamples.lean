import Verif.Props.SolveBsr
import Verif.Props.BlockJacobiExamples

/-!
# C67: examples.  `exBj` meets the hypotheses of `ssorBsr_spec` (see `BlockJacobiExamples`).
-/

namespace Lis

/-- two vectors: `b` is vector 0, `x` vector 1 -/
def exTwo (n : ℕ) (b x : List ℚ) : Vecs ℚ := fun w => if w = 0 then ⟨n, .ofList b⟩ else ⟨n, .ofList x⟩

example : exBj.nr * exBj.bnr ≤ ((exTwo 3 [19, 10, 12, 123] [7, 7, 7, 9]) 0).value.size := by decide

/-- order 3, the last block is cut; the padding elements hold junk; `w = 1` -/
example : (ssorBsr (fun _ _ => 0) (fun _ _ => 0) (fun _ => 77) (fun _ => 88) (fun _ => 99) (fun _ _ => 55) 1 exBj 0 1
    (exTwo 3 [19, 10, 12, 123] [7, 7, 7, 9])).map (fun h => (h 1).value.toList.take 3) = some [1, 2, 3] := by
  decide +kernel

/-- order 4, two blocks of order 2 in every block row:
```
1 0 | 1 2
0 1 | 3 4
----+----
0 1 | 2 0
1 0 | 0 1
``` -/
def exBj4 : Bsr ℚ := ⟨4, 2, 2, 2, 2, 4, .ofList [0, 2, 4], .ofList [0, 1, 1, 0],
  .ofList [1, 0, 0, 1, 1, 3, 2, 4, 2, 0, 0, 1, 0, 1, 1, 0]⟩

/-- `(D+L)D⁻¹(D+U) x = b` for `x = (1,1,1,1)`, also in place -/
example : (ssorBsr (fun _ _ => 0) (fun _ _ => 0) (fun _ => 77) (fun _ => 88) (fun _ => 99) (fun _ _ => 55) 1 exBj4 0 1
    (exTwo 4 [4, 8, 10, 5] [7, 7, 7, 9])).map (fun h => (h 1).value.toList) = some [1, 1, 1, 1] := by decide +kernel

example : (ssorBsr (fun _ _ => 0) (fun _ _ => 0) (fun _ => 77) (fun _ => 88) (fun _ => 99) (fun _ _ => 55) 1 exBj4 0 0
    (exTwo 4 [4, 8, 10, 5] [])).map (fun h => (h 0).value.toList) = some [1, 1, 1, 1] := by decide +kernel

end Lis
