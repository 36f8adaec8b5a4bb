import Verif.Spec.Args
import Mathlib.Data.Nat.Notation
import Mathlib.Tactic.Common

/-! # C29, C30: reading an option text -/

namespace Lis

/-- `l` is stored in `buf` from position `p` on -/
def Holds (buf : Arr Char) : ℕ → List Char → Prop
  | _, [] => True
  | p, c :: l => p < buf.size ∧ buf.get p = c ∧ Holds buf (p + 1) l

theorem Holds.append {buf : Arr Char} : ∀ {l l' : List Char} {p : ℕ},
    Holds buf p (l ++ l') ↔ Holds buf p l ∧ Holds buf (p + l.length) l' := by
  intro l
  induction l with
  | nil => intro l' p; simp [Holds]
  | cons c l ih =>
    intro l' p
    simp only [List.cons_append, Holds, List.length_cons, ih, and_assoc]
    rw [show p + 1 + l.length = p + (l.length + 1) by omega]

theorem Holds.set_lt {buf : Arr Char} {q : ℕ} {v : Char} : ∀ {l : List Char} {p : ℕ}, Holds buf p l → q < p →
    Holds (buf.set q v) p l := by
  intro l
  induction l with
  | nil => intro p _ _; trivial
  | cons c l ih =>
    intro p h hq
    exact ⟨h.1, by rw [Arr.set_get_ne _ _ (by omega)]; exact h.2.1, ih h.2.2 (by omega)⟩

theorem Holds.set_ge {buf : Arr Char} {q : ℕ} {v : Char} : ∀ {l : List Char} {p : ℕ}, Holds buf p l →
    p + l.length ≤ q → Holds (buf.set q v) p l := by
  intro l
  induction l with
  | nil => intro p _ _; trivial
  | cons c l ih =>
    intro p h hq
    rw [List.length_cons] at hq
    exact ⟨h.1, by rw [Arr.set_get_ne _ _ (by omega)]; exact h.2.1, ih h.2.2 (by omega)⟩

/-- the copied text fits: it is in the buffer, with its terminator -/
theorem Ok_strcpyBuf : ∀ (l : List Char) (buf : Arr Char) (p : ℕ), p + l.length < buf.size →
    Ok (strcpyBuf buf p l) fun b => b.size = buf.size ∧ Holds b p (l ++ [nul]) ∧ ∀ q, q < p → b.get q = buf.get q := by
  intro l
  induction l with
  | nil =>
    intro buf p h
    simp only [List.length_nil] at h
    simp only [strcpyBuf, Ok_wr]
    exact ⟨by omega, rfl, ⟨by simpa using h, by simp, trivial⟩, fun q hq => Arr.set_get_ne _ _ (by omega)⟩
  | cons c l ih =>
    intro buf p h
    rw [List.length_cons] at h
    simp only [strcpyBuf, Ok_bind, Ok_wr]
    refine ⟨by omega, (ih _ (p + 1) (by rw [Arr.set_size]; omega)).mono ?_⟩
    rintro b ⟨h1, h2, h3⟩
    rw [Arr.set_size] at h1
    refine ⟨h1, ⟨by omega, ?_, h2⟩, fun q hq => ?_⟩
    · rw [h3 p (by omega), Arr.set_get_self]
    · rw [h3 q (by omega), Arr.set_get_ne _ _ (by omega)]

theorem strcpyBuf_overflow : ∀ (l : List Char) (buf : Arr Char) (p : ℕ), buf.size ≤ p + l.length →
    strcpyBuf buf p l = none := by
  intro l
  induction l with
  | nil =>
    intro buf p h
    simp only [List.length_nil] at h
    simp only [strcpyBuf, Arr.wr]
    rw [if_neg (by omega)]
  | cons c l ih =>
    intro buf p h
    rw [List.length_cons] at h
    simp only [strcpyBuf, Arr.wr]
    split
    · exact ih _ _ (by rw [Arr.set_size]; omega)
    · rfl

theorem isWs_nul : isWs nul = false := by decide

theorem skipWs_eq {buf : Arr Char} {c : Char} (hc : isWs c = false) : ∀ {l : List Char} {p : ℕ},
    (∀ x ∈ l, isWs x = true) → Holds buf p (l ++ [c]) → skipWs buf p = some (p + l.length) := by
  intro l
  induction l with
  | nil =>
    intro p _ h
    unfold skipWs
    rw [whileL]
    simp only [Arr.rd, h.1, if_true, Option.bind_some, h.2.1, hc]
    rfl
  | cons x l ih =>
    intro p hl h
    have hx := hl x List.mem_cons_self
    unfold skipWs
    rw [whileL]
    simp only [Arr.rd, h.1, if_true, Option.bind_some, h.2.1, hx]
    have := ih (fun y hy => hl y (List.mem_cons_of_mem _ hy)) h.2.2
    unfold skipWs at this
    simp only [Arr.rd] at this
    rw [this, List.length_cons]
    congr 1
    omega

/-- a word: no blank, no terminator -/
def IsWord (w : List Char) : Prop := ∀ x ∈ w, isWs x = false ∧ x ≠ nul

/-- only positions `[p, p+k)` differ -/
def SameOut (b b' : Arr Char) (p k : ℕ) : Prop :=
  b'.size = b.size ∧ ∀ q, ¬ (p ≤ q ∧ q < p + k) → b'.get q = b.get q

theorem Holds.same {b b' : Arr Char} {p k : ℕ} (h : SameOut b b' p k) : ∀ {l : List Char} {q : ℕ}, Holds b q l →
    (q + l.length ≤ p ∨ p + k ≤ q) → Holds b' q l := by
  intro l
  induction l with
  | nil => intro q _ _; trivial
  | cons c l ih =>
    intro q hl hq
    rw [List.length_cons] at hq
    exact ⟨by rw [h.1]; exact hl.1, by rw [h.2 q (by omega)]; exact hl.2.1, ih hl.2.2 (by omega)⟩

theorem scanWord_eq {c : Char} (hc : isWs c = true ∨ c = nul) : ∀ {w : List Char} {buf : Arr Char} {p : ℕ},
    IsWord w → Holds buf p (w ++ [c]) →
    Ok (scanWord buf p) fun s => s.2 = p + w.length ∧ Holds s.1 p (w.map Char.toLower) ∧ SameOut buf s.1 p w.length := by
  intro w
  induction w with
  | nil =>
    intro buf p _ h
    have hcond : (!isWs c && c != nul) = false := by
      rcases hc with h | h <;> simp [h]
    unfold scanWord
    rw [whileL]
    simp only [Arr.rd, h.1, if_true, Option.bind_some, h.2.1, hcond]
    rw [Ok_some]
    exact ⟨rfl, trivial, rfl, fun _ _ => rfl⟩
  | cons x w ih =>
    intro buf p hw h
    have hx := hw x List.mem_cons_self
    have hcond : (!isWs x && x != nul) = true := by simp [hx.1, hx.2]
    unfold scanWord
    rw [whileL]
    simp only [Arr.rd, Arr.wr, h.1, if_true, Option.bind_some, h.2.1, hcond]
    have hh : Holds (buf.set p x.toLower) (p + 1) (w ++ [c]) := h.2.2.set_lt (by omega)
    have := ih (fun y hy => hw y (List.mem_cons_of_mem _ hy)) hh
    unfold scanWord at this
    simp only [Arr.rd, Arr.wr] at this
    refine this.mono ?_
    rintro ⟨b, q⟩ ⟨h1, h2, h3, h4⟩
    simp only at h1 h2 h3 h4 ⊢
    rw [Arr.set_size] at h3
    refine ⟨by rw [List.length_cons]; omega, ⟨by rw [h3]; exact h.1, ?_, h2⟩, h3, fun q hq => ?_⟩
    · rw [h4 p (by omega), Arr.set_get_self]
    · rw [List.length_cons] at hq
      rw [h4 q (by omega), Arr.set_get_ne _ _ (by omega)]

theorem cstr_aux {buf : Arr Char} : ∀ {w acc : List Char} {p : ℕ}, (∀ x ∈ w, x ≠ nul) → Holds buf p (w ++ [nul]) →
    whileL (fun s : ℕ × List Char => (buf.rd s.1).bind fun c => some (c != nul))
      (fun s => (buf.rd s.1).bind fun c => some (s.1 + 1, s.2 ++ [c])) (p, acc) = some (p + w.length, acc ++ w) := by
  intro w
  induction w with
  | nil =>
    intro acc p _ h
    rw [whileL]
    simp [Arr.rd, h.1, h.2.1]
  | cons x w ih =>
    intro acc p hw h
    have hx := hw x List.mem_cons_self
    rw [whileL]
    have := ih (acc := acc ++ [x]) (fun y hy => hw y (List.mem_cons_of_mem _ hy)) h.2.2
    simp only [Arr.rd] at this
    have hb : (x != nul) = true := by simp [hx]
    simp only [Arr.rd, h.1, if_true, Option.bind_some, h.2.1, hb, this]
    simp
    omega

theorem cstr_eq {buf : Arr Char} {w : List Char} {p : ℕ} (hw : ∀ x ∈ w, x ≠ nul) (h : Holds buf p (w ++ [nul])) :
    cstr buf p = some w := by
  unfold cstr
  rw [cstr_aux hw h]
  simp

/-! ### words -/

theorem words_nil : words [] = [] := by simp [words]

theorem words_skip {b l : List Char} (hb : ∀ x ∈ b, isWs x = true) : words (b ++ l) = words l := by
  induction b with
  | nil => rfl
  | cons x b ih =>
    have hx := hb x List.mem_cons_self
    rw [← ih fun y hy => hb y (List.mem_cons_of_mem _ hy)]
    unfold words
    rw [List.cons_append, List.splitOnP_cons, if_pos hx]
    simp

theorem words_blank {b : List Char} (hb : ∀ x ∈ b, isWs x = true) : words b = [] := by
  have := words_skip (l := []) hb
  rwa [List.append_nil, words_nil] at this

theorem words_single {w : List Char} (hw : ∀ x ∈ w, isWs x = false) (hne : w ≠ []) : words w = [w] := by
  unfold words
  rw [List.splitOnP_eq_single (by simpa using hw)]
  simp [hne]

theorem words_word {w l : List Char} {c : Char} (hw : ∀ x ∈ w, isWs x = false) (hne : w ≠ []) (hc : isWs c = true) :
    words (w ++ c :: l) = w :: words l := by
  unfold words
  rw [List.splitOnP_append_cons_of_forall_mem (by simpa using hw) _ hc]
  simp [hne]

theorem toLower_toNat (c : Char) :
    c.toLower.toNat = if 65 ≤ c.toNat ∧ c.toNat ≤ 90 then c.toNat + 32 else c.toNat := by
  unfold Char.toLower
  split
  · next h =>
    have h1 : 65 ≤ c.toNat := UInt32.le_iff_toNat_le.mp h.1
    have h2 : c.toNat ≤ 90 := UInt32.le_iff_toNat_le.mp h.2
    rw [if_pos ⟨h1, h2⟩]
    show (c.val + ('a'.val - 'A'.val)).toNat = c.val.toNat + 32
    have h3 : c.val.toNat ≤ 90 := h2
    rw [UInt32.toNat_add]
    show (c.val.toNat + 32) % 2 ^ 32 = c.val.toNat + 32
    omega
  · next h =>
    rw [if_neg]
    intro h'
    apply h
    exact ⟨UInt32.le_iff_toNat_le.mpr h'.1, UInt32.le_iff_toNat_le.mpr h'.2⟩

theorem char_toNat_inj {c d : Char} : c = d ↔ c.toNat = d.toNat :=
  ⟨fun h => by rw [h], fun h => Char.ext (UInt32.toNat_inj.mp h)⟩

theorem isWs_iff (c : Char) : isWs c = true ↔ c.toNat = 32 ∨ c.toNat = 9 ∨ c.toNat = 10 ∨ c.toNat = 13 := by
  simp only [isWs, Bool.or_eq_true, decide_eq_true_eq, char_toNat_inj, or_assoc]
  exact Iff.rfl

theorem isWs_toLower (c : Char) : isWs c.toLower = isWs c := by
  rw [Bool.eq_iff_iff, isWs_iff, isWs_iff, toLower_toNat]
  split <;> omega

theorem toLower_nul {c : Char} (h : c ≠ nul) : c.toLower ≠ nul := by
  intro e
  apply h
  rw [char_toNat_inj] at e ⊢
  rw [toLower_toNat] at e
  have : nul.toNat = 0 := rfl
  rw [this] at e ⊢
  split at e <;> omega

theorem mem_takeWhile_sat {p : Char → Bool} {l : List Char} {x : Char} (h : x ∈ l.takeWhile p) : p x = true := by
  induction l with
  | nil => simp at h
  | cons y l ih =>
    rw [List.takeWhile_cons] at h
    split at h
    · next hy =>
      rcases List.mem_cons.mp h with rfl | h
      · exact hy
      · exact ih h
    · simp at h

/-- blanks, a word, and what follows -/
theorem decomp : ∀ l : List Char, (∀ x ∈ l, x ≠ nul) → ∃ b w r, l = b ++ (w ++ r) ∧ (∀ x ∈ b, isWs x = true) ∧
    IsWord w ∧ (r = [] ∨ ∃ c r', r = c :: r' ∧ isWs c = true ∧ w ≠ []) := by
  intro l hl
  refine ⟨l.takeWhile isWs, (l.dropWhile isWs).takeWhile (fun x => !isWs x),
    (l.dropWhile isWs).dropWhile (fun x => !isWs x), ?_, ?_, ?_, ?_⟩
  · rw [List.takeWhile_append_dropWhile, List.takeWhile_append_dropWhile]
  · intro x hx
    exact mem_takeWhile_sat hx
  · intro x hx
    refine ⟨by simpa using mem_takeWhile_sat hx, hl x ?_⟩
    exact (List.dropWhile_sublist _).mem ((List.takeWhile_sublist _).mem hx)
  · rcases h1 : l.dropWhile isWs with _ | ⟨d, l1⟩
    · left; simp
    · have hd : isWs d = false := by
        have := List.head?_dropWhile_not isWs l
        rw [h1] at this
        simpa using this
      rcases h2 : (d :: l1).dropWhile (fun x => !isWs x) with _ | ⟨c, r'⟩
      · left; rfl
      · right
        refine ⟨c, r', rfl, ?_, ?_⟩
        · have := List.head?_dropWhile_not (fun x => !isWs x) (d :: l1)
          rw [h2] at this
          simpa using this
        · simp [hd]

theorem IsWord.lower {w : List Char} (h : IsWord w) : IsWord (w.map Char.toLower) := by
  intro x hx
  obtain ⟨y, hy, rfl⟩ := List.mem_map.mp hx
  exact ⟨by rw [isWs_toLower]; exact (h y hy).1, toLower_nul (h y hy).2⟩

theorem blank_lower {b : List Char} (h : ∀ x ∈ b, isWs x = true) : ∀ x ∈ b.map Char.toLower, isWs x = true := by
  intro x hx
  obtain ⟨y, hy, rfl⟩ := List.mem_map.mp hx
  rw [isWs_toLower]; exact h y hy

/-- at most one word: no pair -/
theorem optionPairs_one {b w : List Char} (hb : ∀ x ∈ b, isWs x = true) (hw : IsWord w) :
    optionPairs (b ++ w) = [] := by
  unfold optionPairs
  rw [List.map_append, words_skip (blank_lower hb)]
  by_cases h : w = []
  · subst h; simp [words_nil, pairUp]
  · rw [words_single (fun x hx => (hw.lower x hx).1) (by simpa using h)]
    rfl

/-- exactly two words -/
theorem optionPairs_two {b w b' w' : List Char} {c : Char} (hb : ∀ x ∈ b, isWs x = true) (hw : IsWord w)
    (hne : w ≠ []) (hc : isWs c = true) (hb' : ∀ x ∈ b', isWs x = true) (hw' : IsWord w') (hne' : w' ≠ []) :
    optionPairs (b ++ (w ++ c :: (b' ++ w'))) = [(w.map Char.toLower, w'.map Char.toLower)] := by
  unfold optionPairs
  rw [List.map_append, words_skip (blank_lower hb), List.map_append, List.map_cons,
    words_word (fun x hx => (hw.lower x hx).1) (by simpa using hne) (by rw [isWs_toLower]; exact hc),
    List.map_append, words_skip (blank_lower hb'), words_single (fun x hx => (hw'.lower x hx).1) (by simpa using hne')]
  rfl

/-- one word and blanks -/
theorem optionPairs_word_blank {b w b' : List Char} {c : Char} (hb : ∀ x ∈ b, isWs x = true) (hw : IsWord w)
    (hne : w ≠ []) (hc : isWs c = true) (hb' : ∀ x ∈ b', isWs x = true) :
    optionPairs (b ++ (w ++ c :: b')) = [] := by
  unfold optionPairs
  rw [List.map_append, words_skip (blank_lower hb), List.map_append, List.map_cons,
    words_word (fun x hx => (hw.lower x hx).1) (by simpa using hne) (by rw [isWs_toLower]; exact hc),
    words_blank (blank_lower hb')]
  rfl

/-- two words and a rest -/
theorem optionPairs_more {b w b' w' r : List Char} {c c' : Char} (hb : ∀ x ∈ b, isWs x = true) (hw : IsWord w)
    (hne : w ≠ []) (hc : isWs c = true) (hb' : ∀ x ∈ b', isWs x = true) (hw' : IsWord w') (hne' : w' ≠ [])
    (hc' : isWs c' = true) :
    optionPairs (b ++ (w ++ c :: (b' ++ (w' ++ c' :: r)))) =
      (w.map Char.toLower, w'.map Char.toLower) :: optionPairs r := by
  unfold optionPairs
  rw [List.map_append, words_skip (blank_lower hb), List.map_append, List.map_cons,
    words_word (fun x hx => (hw.lower x hx).1) (by simpa using hne) (by rw [isWs_toLower]; exact hc),
    List.map_append, words_skip (blank_lower hb'), List.map_append, List.map_cons,
    words_word (fun x hx => (hw'.lower x hx).1) (by simpa using hne') (by rw [isWs_toLower]; exact hc')]
  rfl

/-- what the loop still has to read -/
structure T2A.Mid (N : ℕ) (target : List (List Char × List Char)) (s : T2A) (rest : List Char) : Prop where
  size : s.buf.size = N
  brk : s.brk = false
  f : s.f = true
  clean : ∀ x ∈ rest, x ≠ nul
  holds : Holds s.buf s.p (rest ++ [nul])
  args : s.args ++ optionPairs rest = target

/-- one iteration of `lis_text2args` -/
theorem t2aBody_ok {N : ℕ} {target : List (List Char × List Char)} {s : T2A} {rest : List Char}
    (h : s.Mid N target rest) :
    Ok (t2aBody s) fun s' => s'.buf.size = N ∧
      ((s'.brk = true ∧ s'.args = target ∧ ∃ b w, rest = b ++ w ∧ (∀ x ∈ b, isWs x = true) ∧ IsWord w) ∨
       (s'.brk = false ∧ s'.f = false ∧ s'.args = target ∧ s'.p = s.p + rest.length + 1) ∨
       ∃ rest', s'.Mid N target rest' ∧ s'.p + rest'.length = s.p + rest.length ∧ s.p < s'.p ∧
         2 ≤ rest.countP isWs) := by
  obtain ⟨hsz, hbrk, hf, hclean, hh, hargs⟩ := h
  obtain ⟨b, w, r, rfl, hb, hw, hr⟩ := decomp rest hclean
  have hcl : ∀ x ∈ r, x ≠ nul := fun x hx => hclean x (by simp [hx])
  -- the character after the first word
  obtain ⟨d, tl, hd, hdc⟩ : ∃ d tl, r ++ [nul] = d :: tl ∧ (isWs d = true ∨ d = nul) := by
    rcases hr with rfl | ⟨c, r', rfl, hc, _⟩
    · exact ⟨nul, [], rfl, Or.inr rfl⟩
    · exact ⟨c, r' ++ [nul], rfl, Or.inl hc⟩
  have hh1 : Holds s.buf s.p (b ++ (w ++ (d :: tl))) := by
    rw [← hd]; simpa [List.append_assoc] using hh
  obtain ⟨hb0, hwr⟩ := Holds.append.mp hh1
  obtain ⟨hw0, hd0⟩ := Holds.append.mp hwr
  -- first non-blank
  have hskip : skipWs s.buf s.p = some (s.p + b.length) := by
    rcases hww : w with _ | ⟨x, w1⟩
    · subst hww
      rcases hr with rfl | ⟨c, r', rfl, hc, hne⟩
      · simp at hd
        refine skipWs_eq isWs_nul hb ?_
        rw [Holds.append]
        refine ⟨hb0, ?_⟩
        have := hd0
        simp only [List.length_nil, Nat.add_zero] at this
        rw [hd.1]
        exact ⟨this.1, this.2.1, trivial⟩
      · exact absurd rfl hne
    · subst hww
      refine skipWs_eq (hw x List.mem_cons_self).1 hb ?_
      rw [Holds.append]
      exact ⟨hb0, hw0.1, hw0.2.1, trivial⟩
  unfold t2aBody
  rw [Ok_bind, hskip, Ok_some, Ok_bind]
  have hsc : Holds s.buf (s.p + b.length) (w ++ [d]) := Holds.append.mpr ⟨hw0, hd0.1, hd0.2.1, trivial⟩
  refine (scanWord_eq hdc hw hsc).mono ?_
  rintro ⟨b1, p1⟩ ⟨hp1, hlow, hsame⟩
  simp only at hp1 hlow hsame
  subst hp1
  have hd1 : Holds b1 (s.p + b.length + w.length) (d :: tl) := hd0.same hsame (Or.inr (by omega))
  rw [Ok_bind, Ok_rd]
  refine ⟨hd1.1, ?_⟩
  have hrd : b1.get (s.p + b.length + w.length) = d := hd1.2.1
  simp only [hrd]
  rcases hr with rfl | ⟨c, r', rfl, hc, hne⟩
  · -- a lone word at the end
    simp at hd
    rw [if_pos hd.1.symm, Ok_pure]
    refine ⟨by rw [← hsz]; exact hsame.1, Or.inl ⟨rfl, ?_, b, w, by simp, hb, hw⟩⟩
    rw [← hargs, List.append_nil, optionPairs_one hb hw, List.append_nil]
  · simp only [List.cons_append, List.cons.injEq] at hd
    obtain ⟨rfl, rfl⟩ := hd
    have hcn : c ≠ nul := hclean c (by simp)
    rw [if_neg hcn, Ok_bind, Ok_wr]
    refine ⟨hd1.1, ?_⟩
    have hcl' : ∀ x ∈ r', x ≠ nul := fun x hx => hcl x (List.mem_cons_of_mem _ hx)
    obtain ⟨b2, w2, r2, rfl, hb2, hw2, hr2⟩ := decomp r' hcl'
    obtain ⟨d2, tl2, hd2, hdc2⟩ : ∃ d tl, r2 ++ [nul] = d :: tl ∧ (isWs d = true ∨ d = nul) := by
      rcases hr2 with rfl | ⟨c, r', rfl, hc, _⟩
      · exact ⟨nul, [], rfl, Or.inr rfl⟩
      · exact ⟨c, r' ++ [nul], rfl, Or.inl hc⟩
    set q := s.p + b.length + w.length with hq
    set bb := b1.set q nul with hbb
    have hh2 : Holds bb (q + 1) (b2 ++ (w2 ++ (d2 :: tl2))) := by
      rw [← hd2]
      have := (hd1.2.2).set_lt (q := q) (v := nul) (by omega)
      simpa [List.append_assoc] using this
    obtain ⟨hb20, hwr2⟩ := Holds.append.mp hh2
    obtain ⟨hw20, hd20⟩ := Holds.append.mp hwr2
    have hskip2 : skipWs bb (q + 1) = some (q + 1 + b2.length) := by
      rcases hww : w2 with _ | ⟨x, w1⟩
      · subst hww
        rcases hr2 with rfl | ⟨c, r', rfl, hc, hne⟩
        · simp at hd2
          refine skipWs_eq isWs_nul hb2 ?_
          rw [Holds.append]
          refine ⟨hb20, ?_⟩
          have := hd20
          simp only [List.length_nil, Nat.add_zero] at this
          rw [hd2.1]
          exact ⟨this.1, this.2.1, trivial⟩
        · exact absurd rfl hne
      · subst hww
        refine skipWs_eq (hw2 x List.mem_cons_self).1 hb2 ?_
        rw [Holds.append]
        exact ⟨hb20, hw20.1, hw20.2.1, trivial⟩
    rw [Ok_bind, hskip2, Ok_some, Ok_bind]
    have hsc2 : Holds bb (q + 1 + b2.length) (w2 ++ [d2]) := Holds.append.mpr ⟨hw20, hd20.1, hd20.2.1, trivial⟩
    refine (scanWord_eq hdc2 hw2 hsc2).mono ?_
    rintro ⟨b3, p3⟩ ⟨hp3, hlow2, hsame2⟩
    simp only at hp3 hlow2 hsame2
    subst hp3
    set q2 := q + 1 + b2.length + w2.length with hq2
    have hd3 : Holds b3 q2 (d2 :: tl2) := hd20.same hsame2 (Or.inr (by omega))
    rw [Ok_bind, Ok_rd]
    refine ⟨hd3.1, ?_⟩
    simp only [hd3.2.1]
    rw [Ok_bind, Ok_wr]
    refine ⟨hd3.1, ?_⟩
    -- the two strings
    have hlow' : Holds bb (s.p + b.length) (w.map Char.toLower ++ [nul]) := by
      rw [Holds.append]
      refine ⟨hlow.set_ge (by simp [hq]), ?_⟩
      rw [List.length_map]
      exact ⟨hd1.1, by simp [hbb, hq], trivial⟩
    have ha1 : cstr (b3.set q2 nul) (s.p + b.length) = some (w.map Char.toLower) := by
      refine cstr_eq (fun x hx => (hw.lower x hx).2) ?_
      have e1 := hlow'.same hsame2 (Or.inl (by simp [hq]; omega))
      exact e1.set_ge (by simp [hq2, hq]; omega)
    have ha2 : cstr (b3.set q2 nul) (q + 1 + b2.length) = some (w2.map Char.toLower) := by
      refine cstr_eq (fun x hx => (hw2.lower x hx).2) ?_
      rw [Holds.append]
      refine ⟨hlow2.set_ge (by simp [hq2]), ?_⟩
      rw [List.length_map]
      exact ⟨hd3.1, by simp [hq2], trivial⟩
    rw [Ok_bind, ha1, Ok_some, Ok_bind, ha2, Ok_some, Ok_pure]
    have hsz3 : (b3.set q2 nul).size = N := by
      rw [Arr.set_size, hsame2.1, hbb, Arr.set_size, hsame.1, hsz]
    refine ⟨hsz3, ?_⟩
    have hwl : 0 < (w.map Char.toLower).length := by
      rw [List.length_map]; exact List.length_pos_iff.mpr hne
    rcases hr2 with rfl | ⟨c2, r3, rfl, hc2, hne2⟩
    · -- the text ends here
      simp at hd2
      obtain ⟨rfl, _⟩ := hd2
      refine Or.inr (Or.inl ⟨rfl, by simp, ?_, ?_⟩)
      · dsimp only
        rw [← hargs]
        by_cases h2 : w2 = []
        · subst h2
          rw [if_neg (by simp)]
          simp only [List.append_nil]
          rw [optionPairs_word_blank hb hw hne hc hb2, List.append_nil]
        · rw [if_pos ⟨hwl, by rw [List.length_map]; exact List.length_pos_iff.mpr h2⟩, List.append_nil,
            optionPairs_two hb hw hne hc hb2 hw2 h2]
      · dsimp only
        simp only [List.length_append, List.length_cons, List.length_nil]
        omega
    · simp only [List.cons_append, List.cons.injEq] at hd2
      obtain ⟨rfl, rfl⟩ := hd2
      have hcn2 : c2 ≠ nul := hcl' c2 (by simp)
      refine Or.inr (Or.inr ⟨r3, ⟨hsz3, rfl, by dsimp only; rw [if_neg hcn2]; exact hf, ?_, ?_, ?_⟩, ?_, ?_, ?_⟩)
      · exact fun x hx => hcl' x (by simp [hx])
      · exact hd3.2.2.set_lt (by omega)
      · dsimp only
        rw [← hargs, if_pos ⟨hwl, by rw [List.length_map]; exact List.length_pos_iff.mpr hne2⟩,
          optionPairs_more hb hw hne hc hb2 hw2 hne2 hc2, List.append_assoc]
        rfl
      · dsimp only
        simp only [List.length_append, List.length_cons]
        omega
      · dsimp only
        omega
      · simp only [List.countP_append, List.countP_cons, hc, hc2, if_true]
        omega

/-- C29, C30: a text of at most 1022 characters is read within bounds, whatever the buffer held before, and
gives its words, in lower case, two at a time -/
theorem text2args_spec (junk : ℕ → Char) (text : List Char) (hn : ∀ x ∈ text, x ≠ nul) (hl : text.length ≤ 1022) :
    text2args junk text = some (optionPairs text) := by
  have main : Ok (text2args junk text) fun a => a = optionPairs text := by
    unfold text2args
    rw [Ok_bind]
    refine (Ok_strcpyBuf text _ 0 (by simp; omega)).mono ?_
    rintro buf ⟨hsz, hh, _⟩
    rw [Arr.malloc_size] at hsz
    rw [Ok_bind]
    refine Ok_while (fun s : T2A => s.buf.size = 1024 ∧ ((s.brk = true ∧ s.args = optionPairs text) ∨
      (s.brk = false ∧ s.f = false ∧ s.args = optionPairs text ∧ s.p < 1024) ∨
      ∃ rest, s.Mid 1024 (optionPairs text) rest ∧ s.p + rest.length + 1 < 1024))
      (fun s => if s.brk ∨ !s.f then 0 else 1024 - s.p) ?_ ?_
    · exact ⟨hsz, Or.inr (Or.inr ⟨text, ⟨hsz, rfl, rfl, hn, hh, by simp⟩, by dsimp only; omega⟩)⟩
    · rintro s ⟨hs, h | h | ⟨rest, hm, hlt⟩⟩
      · unfold t2aCond
        rw [if_pos h.1, Ok_some, if_neg (by simp), Ok_pure]
        exact h.2
      · unfold t2aCond
        rw [if_neg (by simp [h.1]), Ok_obind, Ok_rd]
        refine ⟨by omega, ?_⟩
        simp only [Ok_some, h.2.1, Bool.and_false, if_false, Ok_pure, Bool.false_eq_true]
        exact h.2.2.1
      · unfold t2aCond
        rw [if_neg (by simp [hm.brk]), Ok_obind, Ok_rd]
        refine ⟨by omega, ?_⟩
        rw [Ok_some]
        by_cases hr : rest = []
        · subst hr
          have : s.buf.get s.p = nul := hm.holds.2.1
          rw [this, if_neg (by simp), Ok_pure]
          have := hm.args
          simpa [optionPairs, words_nil, pairUp] using this
        · obtain ⟨x, rest', rfl⟩ := List.exists_cons_of_ne_nil hr
          have hx : s.buf.get s.p = x := hm.holds.2.1
          have hxn : x ≠ nul := hm.clean x List.mem_cons_self
          rw [hx, hm.f, if_pos (by simp [hxn])]
          refine (t2aBody_ok hm).mono ?_
          rw [if_neg (by simp [hm.brk])]
          rintro s' ⟨h1, h2 | h2 | ⟨rest'', h2, h3, h4, _⟩⟩
          · exact ⟨⟨h1, Or.inl ⟨h2.1, h2.2.1⟩⟩, by rw [if_pos (by simp [h2.1])]; omega⟩
          · exact ⟨⟨h1, Or.inr (Or.inl ⟨h2.1, h2.2.1, h2.2.2.1, by omega⟩)⟩,
              by rw [if_pos (by simp [h2.2.1])]; omega⟩
          · exact ⟨⟨h1, Or.inr (Or.inr ⟨rest'', h2, by omega⟩)⟩,
              by rw [if_neg (by simp [h2.brk, h2.f])]; omega⟩
  obtain ⟨a, h1, h2⟩ := main
  rw [h1, h2]

/-- C30: a text of 1024 characters or more is copied past the end of the buffer -/
theorem text2args_overflow (junk : ℕ → Char) (text : List Char) (hl : 1024 ≤ text.length) :
    text2args junk text = none := by
  unfold text2args
  rw [strcpyBuf_overflow text _ 0 (by simpa using hl)]
  rfl

/-- C30: with exactly 1023 characters the copy fits, but after a last value the test `*p!='\\0'` reads one
character past the buffer -/
theorem text2args_overread (junk : ℕ → Char) (w w2 : List Char) (c : Char) (hw : IsWord w) (hne : w ≠ [])
    (hc : isWs c = true) (hw2 : IsWord w2) (hl : (w ++ c :: w2).length = 1023) :
    text2args junk (w ++ c :: w2) = none := by
  have hcn : c ≠ nul := by rintro rfl; simp [isWs_nul] at hc
  have hn : ∀ x ∈ w ++ c :: w2, x ≠ nul := by
    intro x hx
    rcases List.mem_append.mp hx with h | h
    · exact (hw x h).2
    · rcases List.mem_cons.mp h with rfl | h
      · exact hcn
      · exact (hw2 x h).2
  unfold text2args
  obtain ⟨buf, hb, hsz, hh, _⟩ := Ok_strcpyBuf (w ++ c :: w2) (Arr.malloc 1024 junk) 0 (by simp at hl ⊢; omega)
  rw [Arr.malloc_size] at hsz
  rw [hb]
  have hm : T2A.Mid 1024 (optionPairs (w ++ c :: w2)) ⟨buf, 0, true, false, []⟩ (w ++ c :: w2) :=
    ⟨hsz, rfl, rfl, hn, hh, by simp⟩
  obtain ⟨s', h1, h2, h3⟩ := t2aBody_ok hm
  obtain ⟨x, l, hx⟩ := List.exists_cons_of_ne_nil (show w ++ c :: w2 ≠ [] by simp)
  have hbx : buf.get 0 = x := by rw [hx] at hh; exact hh.2.1
  have hxn : x ≠ nul := hn x (by rw [hx]; exact List.mem_cons_self)
  have hcond : t2aCond ⟨buf, 0, true, false, []⟩ = some true := by
    simp [t2aCond, Arr.rd, hsz, hbx, hxn]
  show (whileL t2aCond t2aBody ⟨buf, 0, true, false, []⟩).bind _ = none
  rw [whileL, hcond]
  simp only [h1]
  have hcw : (w ++ c :: w2).countP isWs = 1 := by
    have e1 : w.countP isWs = 0 := List.countP_eq_zero.mpr fun x hx => by simp [(hw x hx).1]
    have e2 : w2.countP isWs = 0 := List.countP_eq_zero.mpr fun x hx => by simp [(hw2 x hx).1]
    simp [List.countP_append, List.countP_cons, e1, e2, hc]
  rcases h3 with ⟨_, _, b, v, he, hbl, hv⟩ | h3 | ⟨rest', _, _, _, h5⟩
  · exfalso
    have e0 : v.countP isWs = 0 := List.countP_eq_zero.mpr fun x hx => by simp [(hv x hx).1]
    rcases b with _ | ⟨y, b⟩
    · rw [he, List.nil_append, e0] at hcw
      omega
    · obtain ⟨z, w', rfl⟩ := List.exists_cons_of_ne_nil hne
      simp only [List.cons_append, List.cons.injEq] at he
      have h1 := (hw z List.mem_cons_self).1
      have h2 := hbl y List.mem_cons_self
      rw [he.1, h2] at h1
      simp at h1
  · have : t2aCond s' = none := by
      unfold t2aCond
      rw [if_neg (by simp [h3.1])]
      have hp : s'.p = 1024 := by rw [h3.2.2.2, hl]
      simp [Arr.rd, hp, h2]
    rw [whileL, this]
    rfl
  · omega

/-- such texts exist: `-i xxx…x` -/
example : ∃ w w2 : List Char, IsWord w ∧ w ≠ [] ∧ IsWord w2 ∧ (w ++ ' ' :: w2).length = 1023 :=
  ⟨['-', 'i'], List.replicate 1020 'x', by simp [IsWord]; decide, by simp, by
    intro x hx
    rw [(List.mem_replicate.mp hx).2]
    decide, by
    simp only [List.length_append, List.length_cons, List.length_replicate, List.length_nil]⟩

example : optionPairs "-i BiCG  -tol\t1e-8 -p".toList =
    [("-i".toList, "bicg".toList), ("-tol".toList, "1e-8".toList)] := by
  decide +kernel

example : arg2args ["solve".toList, "-I".toList, "CG".toList, "x".toList, "-p".toList] =
    [("-i".toList, "cg".toList)] := by decide +kernel

end Lis
