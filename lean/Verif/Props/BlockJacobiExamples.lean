import Verif.Props.BlockJacobi
import Mathlib.Algebra.Order.Field.Rat
import Mathlib.Data.Rat.Star

/-!
# C66: examples and exceptions
-/

namespace Lis

/-- order 3, blocks of order 2: the last block row is cut.
```
2 1 | 5
1 3 | 1
----+--
0 0 | 4
``` -/
def exBj : Bsr ℚ := ⟨3, 2, 2, 2, 2, 3, .ofList [0, 2, 3], .ofList [0, 1, 1], .ofList [2, 1, 1, 3, 5, 1, 0, 0, 4, 0, 0, 0]⟩

example : exBj.WF := ⟨⟨by decide, by decide, by decide, by decide⟩, by decide, by decide, by decide, by decide, by decide,
  by decide⟩
example : exBj.Square := ⟨rfl, rfl, rfl⟩
example : exBj.Padded := ⟨by decide, by
  have key : ∀ (br : Fin 2) (bc : Fin 3) (i j : Fin 2), exBj.bptr.get br ≤ bc → bc < exBj.bptr.get (br + 1) →
      (3 ≤ br.val * 2 + i.val ∨ 3 ≤ exBj.bindex.get bc * 2 + j.val) → exBj.value.get (bc * (2 * 2) + j * 2 + i) = 0 := by
    decide +kernel
  intro br hbr bc h1 h2 i j hi hj h3
  have hl : ∀ br, br < 2 → exBj.bptr.get (br + 1) ≤ 3 := by decide +kernel
  exact key ⟨br, hbr⟩ ⟨bc, lt_of_lt_of_le h2 (hl br hbr)⟩ ⟨i, hi⟩ ⟨j, hj⟩ h1 h2 h3⟩
example : ∀ I, I < exBj.nr → exBj.DiagOnce I := by
  have h3 : ∀ br, br < 2 → exBj.bptr.get (br + 1) ≤ 3 := by decide +kernel
  intro I hI
  have h := h3 I hI
  have : I = 0 ∨ I = 1 := by have : exBj.nr = 2 := rfl; omega
  rcases this with rfl | rfl
  · have h : ∀ bc, bc < 3 → exBj.bptr.get 0 ≤ bc → bc < exBj.bptr.get 1 → exBj.bindex.get bc = 0 → bc = 0 := by
      decide +kernel
    exact ⟨0, by decide, by decide, by decide, fun bc a b c => h bc (by have := h3 0 (by decide); simp only [Nat.zero_add] at *; omega) a b c⟩
  · have h : ∀ bc, bc < 3 → exBj.bptr.get 1 ≤ bc → bc < exBj.bptr.get 2 → exBj.bindex.get bc = 1 → bc = 2 := by
      decide +kernel
    exact ⟨2, by decide, by decide, by decide, fun bc a b c => h bc (by have := h3 1 (by decide); simp only [Nat.reduceAdd] at *; omega) a b c⟩
example : exBj.BlockMinors := by
  intro I hI k hk hk2
  have hI' : I = 0 ∨ I = 1 := by have : exBj.nr = 2 := rfl; omega
  have hb : exBj.bnr = 2 := rfl
  have hn : exBj.n = 3 := rfl
  rw [hb] at hk hk2
  rw [hn] at hk2
  rcases hI' with rfl | rfl
  · have : k = 0 ∨ k = 1 ∨ k = 2 := by omega
    rcases this with rfl | rfl | rfl <;> decide +kernel
  · have : k = 0 ∨ k = 1 := by omega
    rcases this with rfl | rfl <;> decide +kernel

/-- the preconditioner of `exBj` applied to `(5, 10, 8)`; the padding element of the vectors is junk -/
example : ((createBjacobi (fun _ _ => 0) (fun _ _ => 0) (fun _ => 77) (fun _ => 88) (fun _ _ => 99) exBj).bind fun wd =>
    diagMatvec 2 2 wd (.ofList [5, 10, 8, 123]) (.ofList [0, 0, 0, 0])).map (fun y => y.toList.take 3) = some [1, 3, 2] := by
  decide +kernel

/-- **C66, exception.** With variable block sizes (VBR) `lis_matrix_diag_matvec` takes block `i` to start at
`x[i*bns[i]]` instead of after the preceding blocks.  Sizes 1, 2: the read goes past the end of the vectors. -/
theorem diagMatvecVbr_oob :
    diagMatvecVbr 2 (fun i => i + 1) (fun i => if i = 0 then .ofList [1] else .ofList [1, 0, 0, 1])
      (Arr.ofList [(1 : ℤ), 2, 3]) (.ofList [0, 0, 0]) = none := by decide +kernel

/-- **C66, exception.** Sizes 2, 1: identity blocks do not give back the vector; `y[2]` is never written. -/
theorem diagMatvecVbr_wrong :
    (diagMatvecVbr 2 (fun i => 2 - i) (fun i => if i = 1 then .ofList [1] else .ofList [1, 0, 0, 1])
      (Arr.ofList [(1 : ℤ), 2, 3]) (.ofList [0, 0, 77])).map Arr.toList = some [1, 2, 77] := by decide +kernel

/-- **C66, exception.** A nonsingular diagonal block whose first element is 0: the inverse of the pivot divides by 0, which
in the model gives 0, so the result is no inverse (in floating point: Inf and NaN).  No error is reported. -/
theorem bjacobi_zero_pivot :
    (diagInverse (fun _ _ => 0) 2 2 1 (Arr.ofList [(0 : ℚ), 1, 1, 0])).map Arr.toList ≠ some [0, 1, 1, 0] := by
  decide +kernel

end Lis
