import Verif.Props.InputHbErrors

/-!
# C65: the choice of the format, and concrete files
-/

namespace Lis
variable {R : Type}

/-! ### Harwell-Boeing or Matrix Market -/

theorem take_blank {n b : ℕ} {w s : List Char} (h : b + w.length ≤ n) :
    (List.replicate b ' ' ++ (w ++ s)).take n = List.replicate b ' ' ++ (w ++ s.take (n - b - w.length)) := by
  rw [List.take_append, List.take_append, List.take_of_length_le (by simp; omega), List.take_of_length_le (by simp; omega)]
  simp

/-- **C65.** `lis_input` takes a file for a Matrix Market file exactly when the first word of its first line starts with
`%%MatrixMarket`; whatever is in uninitialised memory. -/
theorem inputIsMM_spec (junk : List Char) {b : ℕ} {w s : List Char} (tl : List (List Char)) (hw : ∀ c ∈ w, 33 ≤ c.toNat)
    (hw0 : w ≠ []) (hw128 : w.length < 128) (hb : b + w.length < 255) (hs : ∀ c, s.head? = some c → c = ' ' ∨ c = '\n') :
    inputIsMM junk ((List.replicate b ' ' ++ (w ++ s)) :: tl) = some (.ok ("%%MatrixMarket".toList.isPrefixOf w)) := by
  unfold inputIsMM
  simp only
  rw [take_blank (by omega), scanS_word (fun c hc => cSpace_of_ge (hw c hc)) hw0 ?_]
  · simp only
    rw [if_neg (by omega), if_neg hw0]
  · intro c hc
    refine hs c ?_
    cases s with
    | nil => simp at hc
    | cons y s =>
      rw [show 255 - b - w.length = (255 - b - w.length - 1) + 1 by omega, List.take_succ_cons] at hc
      exact hc

/-- When the first line is blank, the decision depends on uninitialised memory. -/
theorem inputIsMM_blank :
    inputIsMM [] [" \n".toList] = some (.ok false) ∧
    inputIsMM "%%MatrixMarket".toList [" \n".toList] = some (.ok true) := by
  constructor <;> decide +kernel

/-! ### a file -/

def exHbTitle : List Char := "A 2 x 2 example\n".toList
def exHbCards : List Char := "             3             1             1             1             0\n".toList
def exHbType : List Char := "rua                        2             2             3             0\n".toList
def exHbFmt : List Char := "(3I4)           (16I5)          (3E8.1)             \n".toList

/-- columns `(5,6)` and `(0,7)` -/
def exHb : List (List Char) :=
  [exHbTitle, exHbCards, exHbType, exHbFmt, "   1   3   4\n".toList, "    1    2    2\n".toList,
    "     5.0     6.0     7.0\n".toList]

theorem exDigits1 (d : ℕ) (h : d < 10) (c : Char) (hc : Nat.digitChar d = c) : Digits [c] d :=
  ⟨[d], by simpa using h, by simp, by simp [hc], by simp⟩

theorem exHb_file : HbFile cAtoi exHb 2 [1, 3, 4] [1, 2, 2] [(5 : ℤ), 6, 7] := by
  refine ⟨by decide +kernel, ?_, by omega, rfl, rfl, rfl, rfl, by decide, by decide⟩
  refine ⟨exHbTitle, exHbCards, exHbType, exHbFmt, [], ["   1   3   4\n".toList], ["    1    2    2\n".toList],
    ["     5.0     6.0     7.0\n".toList], [], 3, 0, (3, 4), (16, 5), (3, 8),
    ["   1".toList, "   3".toList, "   4".toList], ["    1".toList, "    2".toList, "    2".toList],
    ["     5.0".toList, "     6.0".toList, "     7.0".toList], rfl, ?_, ?_, ?_, rfl, by decide, by decide, by decide, ?_, ?_, ?_, ?_, ?_, ?_⟩
  · refine ⟨"\n".toList, Or.inl ?_⟩
    refine ⟨13, "3".toList, "             1             1             1             0\n".toList, by decide +kernel, exDigits1 3 (by omega) _ rfl, by decide +kernel, by decide +kernel, ?_⟩
    refine ⟨13, "1".toList, "             1             1             0\n".toList, by decide +kernel, exDigits1 1 (by omega) _ rfl, by decide +kernel, by decide +kernel, ?_⟩
    refine ⟨13, "1".toList, "             1             0\n".toList, by decide +kernel, exDigits1 1 (by omega) _ rfl, by decide +kernel, by decide +kernel, ?_⟩
    refine ⟨13, "1".toList, "             0\n".toList, by decide +kernel, exDigits1 1 (by omega) _ rfl, by decide +kernel, by decide +kernel, ?_⟩
    exact ⟨13, "0".toList, "\n".toList, by decide +kernel, exDigits1 0 (by omega) _ rfl, by decide +kernel, by decide +kernel, rfl⟩
  · refine ⟨0, "rua".toList, "                       2             2             3             0\n".toList, 0, "\n".toList, by decide +kernel, by decide +kernel, ?_⟩
    refine ⟨23, "2".toList, "             2             3             0\n".toList, by decide +kernel, exDigits1 2 (by omega) _ rfl, by decide +kernel, by decide +kernel, ?_⟩
    refine ⟨13, "2".toList, "             3             0\n".toList, by decide +kernel, exDigits1 2 (by omega) _ rfl, by decide +kernel, by decide +kernel, ?_⟩
    refine ⟨13, "3".toList, "             0\n".toList, by decide +kernel, exDigits1 3 (by omega) _ rfl, by decide +kernel, by decide +kernel, ?_⟩
    exact ⟨13, "0".toList, "\n".toList, by decide +kernel, exDigits1 0 (by omega) _ rfl, by decide +kernel, by decide +kernel, rfl⟩
  · refine ⟨"(3I4)           ".toList, "(16I5)          ".toList, "(3E8.1)             ".toList, "\n".toList, by decide +kernel,
      by decide +kernel, by decide +kernel, by decide +kernel, ?_, ?_, ?_, Or.inl (by decide +kernel)⟩
    · exact ⟨0, "3".toList, 'I', "4".toList, "           ".toList, by decide +kernel, Or.inl rfl, exDigits1 3 (by omega) _ rfl,
        exDigits1 4 (by omega) _ rfl⟩
    · exact ⟨0, "16".toList, 'I', "5".toList, "          ".toList, by decide +kernel, Or.inl rfl,
        ⟨[1, 6], by decide, by decide, by decide +kernel, by decide +kernel⟩, exDigits1 5 (by omega) _ rfl⟩
    · exact ⟨0, "3".toList, 'E', "8".toList, "1".toList, "             ".toList, by decide +kernel, exDigits1 3 (by omega) _ rfl,
        exDigits1 8 (by omega) _ rfl, Or.inl ⟨Or.inl rfl, by decide +kernel⟩⟩
  · exact ⟨⟨"\n".toList, by decide +kernel⟩, by decide +kernel, rfl⟩
  · exact ⟨⟨"\n".toList, by decide +kernel⟩, by decide +kernel, rfl⟩
  · exact ⟨⟨"\n".toList, by decide +kernel⟩, by decide +kernel, rfl⟩
  · exact .cons ⟨3, "1".toList, by decide +kernel, exDigits1 1 (by omega) _ rfl⟩
      (.cons ⟨3, "3".toList, by decide +kernel, exDigits1 3 (by omega) _ rfl⟩
      (.cons ⟨3, "4".toList, by decide +kernel, exDigits1 4 (by omega) _ rfl⟩ .nil))
  · exact .cons ⟨4, "1".toList, by decide +kernel, exDigits1 1 (by omega) _ rfl⟩
      (.cons ⟨4, "2".toList, by decide +kernel, exDigits1 2 (by omega) _ rfl⟩
      (.cons ⟨4, "2".toList, by decide +kernel, exDigits1 2 (by omega) _ rfl⟩ .nil))
  · decide +kernel

def exHbJunk (x : ℤ) : HbJunk ℤ := ⟨fun _ => 'z', fun _ => (0, x), fun _ => x, fun _ => x, fun _ => x⟩

/-- read as a dense matrix -/
example : Ok (inputHb cAtoi (exHbJunk 77) exConvJunk exConvArgs .dns exHb) fun r => ∃ B, r = .ok B ∧ B.fmt = .dns ∧ B.WF ∧
    B.n = 2 ∧ ∀ i j, i < 2 → j < 2 → B.entry i j = hbMatrix [1, 3, 4] [1, 2, 2] [(5 : ℤ), 6, 7] i j :=
  inputHb_spec cAtoi (exHbJunk 77) exConvJunk exConvArgs .dns exHb_file (by
    intro j hj k l h1 h2 h3 h4 h
    interval_cases j
    · have hk : k < 2 := h2
      have hl : l < 2 := h4
      interval_cases k <;> interval_cases l <;> simp_all
    · have hk : k < 3 := h2
      have hl : l < 3 := h4
      have hk' : 2 ≤ k := h1
      have hl' : 2 ≤ l := h3
      omega)

example : hbMatrix [1, 3, 4] [1, 2, 2] [(5 : ℤ), 6, 7] 1 0 = 6 ∧ hbMatrix [1, 3, 4] [1, 2, 2] [(5 : ℤ), 6, 7] 0 1 = 0 := by
  constructor <;> decide +kernel

/-- what is stored in the end, as lists -/
def hbLists (r : Option (Except Err (HbRaw ℤ))) : Option (List ℤ × List ℤ × List ℤ) :=
  match r with
  | some (.ok A) => some (A.ptr.toList, A.index.toList, A.value.toList)
  | _ => none

example : hbLists (hbRead cAtoi (exHbJunk 77) exHb) = some ([0, 2, 3], [0, 1, 1], [5, 6, 7]) := by decide +kernel

/-- `none` marks memory that has never been written -/
def exHbFresh : HbJunk (Option ℤ) := ⟨fun _ => 'z', fun _ => (0, 0), fun _ => 77, fun _ => 77, fun _ => none⟩

def hbValues (r : Option (Except Err (HbRaw (Option ℤ)))) : Option (List (Option ℤ)) :=
  match r with
  | some (.ok A) => some A.value.toList
  | _ => none

example : hbValues (hbRead (fun f => some (cAtoi f)) exHbFresh exHb) = some [some 5, some 6, some 7] := by decide +kernel

/-- **The same file with the value format written with a scale factor** (`(1P,3E8.1)`, which is what Fortran programs
usually write): success, but only the first value of every line is read; the others are what was in fresh memory. -/
theorem hb_scale_misread :
    hbValues (hbRead (fun f => some (cAtoi f)) exHbFresh
      (exHb.set 3 "(3I4)           (16I5)          (1P,3E8.1)          \n".toList)) = some [some 5, none, none] := by
  decide +kernel

/-- **The same file with the value format `(3F8.1)`**: success, and no value is read (when the uninitialised field count is
0). -/
theorem hb_f_misread :
    hbValues (hbRead (fun f => some (cAtoi f)) exHbFresh
      (exHb.set 3 "(3I4)           (16I5)          (3F8.1)             \n".toList)) = some [none, none, none] := by
  decide +kernel

/-- A format without its closing parenthesis: undefined behaviour (a null pointer is dereferenced). -/
theorem hb_paren_undefined :
    hbRead cAtoi (exHbJunk 0) (exHb.set 3 "(3I4)           (16I5)          (3E8.1              \n".toList) |>.isNone := by
  decide +kernel

/-- A row number outside the matrix: accepted, and the conversion to CSR writes outside its arrays. -/
theorem hb_row_undefined :
    hbLists (hbRead cAtoi (exHbJunk 0) (exHb.set 5 "    1    9    2\n".toList)) = some ([0, 2, 3], [0, 8, 1], [5, 6, 7]) ∧
    (inputHb cAtoi (exHbJunk 0) exConvJunk exConvArgs .csr (exHb.set 5 "    1    9    2\n".toList)).isNone := by
  constructor <;> decide +kernel

/-- Fewer pointer cards announced than the file has: the pointers stay what was in fresh memory, the pointer card is read as row
numbers and the row numbers as values; success. -/
theorem hb_cards_misread :
    hbLists (hbRead cAtoi (exHbJunk 50) (exHb.set 1
      "             2             0             1             1             0\n".toList)) =
      some ([50, 50, 50], [0, 2, 3], [1, 2, 0]) := by
  decide +kernel

end Lis
