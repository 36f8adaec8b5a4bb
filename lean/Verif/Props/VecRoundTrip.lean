import Verif.Props.VecIO
import Mathlib.Tactic.NormNum

/-
C62: writing a vector to a file and reading it back, in the three formats.
-/
namespace Lis
variable {K R : Type}

theorem loop_lines {α β : Type} {n : ℕ} {v : Arr α} (hv : n ≤ v.size) (f : ℕ → α → β) :
    (loop 0 n [] fun i (acc : List β) => do
      let x ← v.rd i
      pure (acc ++ [f i x])) = some ((List.range n).map fun i => f i (v.get i)) := by
  have : Ok (loop 0 n [] fun i (acc : List β) => do
      let x ← v.rd i
      pure (acc ++ [f i x])) fun l => l = (List.range n).map fun i => f i (v.get i) := by
    refine Ok_loop_le (fun i l => l = (List.range i).map fun i => f i (v.get i)) (Nat.zero_le _) rfl
      ?_ fun s h => h
    rintro i s _ hi rfl
    simp only [Ok_bind, Ok_rd, Ok_pure]
    exact ⟨by omega, by rw [List.range_succ, List.map_append]; rfl⟩
  obtain ⟨l, h1, rfl⟩ := this
  exact h1

theorem listedAt_range [Zero R] (f : ℕ → R) (n i : ℕ) (hi : i < n) :
    listedAt ((List.range n).map fun j : ℕ => ((j : ℤ) + 1, f j)) i = f i := by
  induction n with
  | zero => omega
  | succ n ih =>
    rw [List.range_succ, List.map_append, List.map_cons, List.map_nil, listedAt_append]
    by_cases h : i = n
    · subst h; rw [if_pos rfl]
    · rw [if_neg (by simp only; omega)]
      exact ih (by omega)

/-! ### Matrix Market -/

/-- **C62.** A vector written with LIS_FMT_MM and read back is the same vector, on every process its own
part (numbers being printed and scanned exactly). -/
theorem vecMm_roundTrip [Zero R] {io : NumIO K R} {pr : Printer K} (hpr : pr.Exact) {pt : Parts K R} (ti : R → ℤ)
    {cplx : Bool} (hpt : PartsOk io pt cplx) {v : OutVec R} (hv : v.n ≤ v.value.size) (hint : v.int = false)
    (range : ℕ → ℕ × ℕ) (hrange : (range v.n).2 ≤ v.n) (d : K) :
    ∃ lines, outputVector pr pt ti cplx 2 v = some (.ok lines) ∧
      Ok (inputVector io cplx range d lines) fun r => ∃ w, r = .ok (some w) ∧
        w.size = (range v.n).2 - (range v.n).1 ∧
        ∀ i, (range v.n).1 ≤ i → i < (range v.n).2 → w.get (i - (range v.n).1) = v.value.get i := by
  refine ⟨_, by
    unfold outputVector outputVectorMm
    rw [if_neg (by decide), if_pos rfl, loop_lines hv fun i x => (⟨false, pr.int (i + 1) :: elemWords pr pt ti cplx v.int x⟩ : Line K)]
    rfl, ?_⟩
  have hf : VecFile io (.ofBuild cplx)
      (⟨true, [pr.word "%%MatrixMarket", pr.word "vector", pr.word "coordinate",
        pr.word (typeWord cplx v.int), pr.word "general"]⟩ :: ⟨false, [pr.int v.n]⟩ ::
        (List.range v.n).map fun i : ℕ => (⟨false, pr.int ((i : ℤ) + 1) :: elemWords pr pt ti cplx v.int (v.value.get i)⟩ : Line K))
      ((List.range v.n).map fun j : ℕ => ((j : ℤ) + 1, v.value.get j)) := by
    refine ⟨_, [], _, _, [], by rw [List.nil_append, List.append_nil], ?_, by simp, rfl, ⟨_, _, rfl, ?_⟩, ?_⟩
    · refine ⟨"vector".toList, "coordinate".toList, (typeWord cplx v.int).toList, "general".toList, ?_, ?_⟩
      · simp only [List.map_cons, List.map_nil, hpr.word]
      · rw [hint]; cases cplx <;> decide
    · rw [List.length_map, List.length_range]; exact hpr.int _
    · refine forall₂_map_left _ _ _ fun i => ?_
      have hp := hpt (v.value.get i)
      refine ⟨_, _, (if cplx then [pr.num (pt.im (v.value.get i))] else []), _, ?_, hpr.int _,
        hpr.num (pt.re (v.value.get i)), ?_⟩
      · rw [hint]; cases cplx <;> rfl
      · cases cplx with
        | false => simpa [MMType.ofBuild] using hp.symm
        | true => exact ⟨_, _, _, rfl, hpr.num _, (by simpa using hp.symm)⟩
  have := inputVector_mm io cplx range d (by cases cplx <;> simp [MMType.ofBuild]) hf
  rw [List.length_map, List.length_range] at this
  refine this.mono ?_
  rintro r ⟨w, rfl, h1, h2⟩
  refine ⟨w, rfl, h1, fun i hi1 hi2 => ?_⟩
  rw [h2 i hi1 hi2, listedAt_range (fun j => v.value.get j) _ _ (by omega)]

/-- **C62 (finding).** A vector flagged as holding integers (`lis_esolver_get_iters` gives one) is
written with LIS_FMT_MM as an `integer` file, which `lis_input_vector` refuses. -/
theorem vecMm_integer_rejected [Zero R] {io : NumIO K R} {pr : Printer K} (hpr : pr.Exact) {pt : Parts K R}
    (ti : R → ℤ) {cplx : Bool} {v : OutVec R} (hv : v.n ≤ v.value.size) (hint : v.int = true)
    (range : ℕ → ℕ × ℕ) (d : K) :
    ∃ lines, outputVector pr pt ti cplx 2 v = some (.ok lines) ∧
      inputVector io cplx range d lines = some (.error .fileIo) := by
  refine ⟨_, by
    unfold outputVector outputVectorMm
    rw [if_neg (by decide), if_pos rfl, loop_lines hv fun i x => (⟨false, pr.int (i + 1) :: elemWords pr pt ti cplx v.int x⟩ : Line K)]
    rfl, ?_⟩
  unfold inputVector
  have h1 : ∀ rest : List (Line K), vecFormat (⟨true, [pr.word "%%MatrixMarket", pr.word "vector", pr.word "coordinate",
        pr.word (typeWord cplx v.int), pr.word "general"]⟩ :: rest) = some (.ok .mm) := by
    intro rest
    unfold vecFormat
    simp only [hpr.word]
    decide
  rw [h1, Option.bind_some]
  simp only
  unfold inputVectorMm
  have h2 : ∀ rest : List (Line K), vmBanner cplx (⟨true, [pr.word "%%MatrixMarket", pr.word "vector", pr.word "coordinate",
        pr.word (typeWord cplx v.int), pr.word "general"]⟩ :: rest) = some (.error .fileIo) := by
    intro rest
    rw [hint]
    unfold vmBanner bannerWord
    simp only [List.getElem?_cons_zero, List.getElem?_cons_succ, hpr.word, typeWord, if_true]
    cases cplx <;> decide
  rw [h2]
  rfl

/-! ### plain files -/

theorem countNums_append (a b : List (Word K)) (h : ∀ w ∈ a, w.num?.isSome) :
    countNums (a ++ b) = a.length + countNums b := by
  induction a with
  | nil => simp
  | cons w a ih =>
    have hw := h w (by simp)
    obtain ⟨x, hx⟩ := Option.isSome_iff_exists.1 hw
    simp only [List.cons_append, countNums, hx, List.length_cons]
    rw [ih fun w hw => h w (by simp [hw])]
    omega

theorem plainLoop_lines (io : NumIO K R) (is ie : ℕ) (x : ℕ → K) :
    ∀ (k i : ℕ) (data rest : List (Line K)) (v : Arr R), data.length = k →
    (∀ j (hj : j < data.length), ∃ o, scanVal .real data[j] = some (x (i + j), o)) →
    v.size = ie - is →
    Ok (plainLoop io is ie k i (data ++ rest) v) fun r => ∃ w, r = .ok w ∧ w.size = ie - is ∧
      ∀ j, is ≤ j → j < ie → w.get (j - is) = if i ≤ j ∧ j < i + k then io.re (x j) else v.get (j - is) := by
  intro k
  induction k with
  | zero =>
    intro i data rest v _ _ hv
    simp only [plainLoop, Ok_some]
    exact ⟨v, rfl, hv, fun j _ _ => by rw [if_neg (by omega)]⟩
  | succ k ih =>
    intro i data rest v hl hs hv
    cases data with
    | nil => simp at hl
    | cons l data =>
      simp only [List.length_cons, Nat.add_right_cancel_iff] at hl
      obtain ⟨o, h0⟩ := hs 0 (by simp)
      simp only [List.getElem_cons_zero, Nat.add_zero] at h0
      have hs' : ∀ j (hj : j < data.length), ∃ o, scanVal .real data[j] = some (x (i + 1 + j), o) := by
        intro j hj
        obtain ⟨o, h⟩ := hs (j + 1) (by simp; omega)
        rw [List.getElem_cons_succ] at h
        exact ⟨o, by rw [h, show i + (j + 1) = i + 1 + j by omega]⟩
      simp only [List.cons_append, plainLoop]
      split
      · next hr =>
        simp only [h0, Ok_obind, Ok_wr]
        refine ⟨by omega, (ih (i + 1) data rest _ hl hs' (by simpa using hv)).mono ?_⟩
        rintro r ⟨w, rfl, h1, h2⟩
        refine ⟨w, rfl, h1, fun j hj1 hj2 => ?_⟩
        rw [h2 j hj1 hj2]
        by_cases hc : i + 1 ≤ j ∧ j < i + 1 + k
        · rw [if_pos hc, if_pos (by omega)]
        · rw [if_neg hc, Arr.set_get]
          by_cases hji : j = i
          · subst hji; rw [if_pos rfl, if_pos (by omega)]
          · rw [if_neg (by omega), if_neg (by omega)]
      · next hr =>
        refine (ih (i + 1) data rest _ hl hs' hv).mono ?_
        rintro r ⟨w, rfl, h1, h2⟩
        refine ⟨w, rfl, h1, fun j hj1 hj2 => ?_⟩
        rw [h2 j hj1 hj2]
        by_cases hc : i + 1 ≤ j ∧ j < i + 1 + k
        · rw [if_pos hc, if_pos (by omega)]
        · rw [if_neg hc, if_neg (by omega)]

theorem plainLoop_short (io : NumIO K R) (is ie : ℕ) :
    ∀ (k i : ℕ) (data : List (Line K)) (v : Arr R), data.length < k → v.size = ie - is →
    plainLoop io is ie k i data v = some (.error .fileIo) := by
  intro k
  induction k with
  | zero => intro i data v h; omega
  | succ k ih =>
    intro i data v h hv
    cases data with
    | nil => rfl
    | cons l data =>
      simp only [List.length_cons, Nat.add_lt_add_iff_right] at h
      simp only [plainLoop]
      split
      · next hr =>
        cases scanVal MMType.real l with
        | none => rfl
        | some e =>
          simp only [Arr.wr]
          rw [if_pos (by omega), Option.bind_some]
          exact ih (i + 1) data _ h (by simpa using hv)
      · exact ih (i + 1) data v h hv

/-- **C62.** A file with one number per line, followed by nothing that reads as a number, is read as the
vector of those numbers, on every process its own part. -/
theorem inputVector_plain [Zero R] (io : NumIO K R) (cplx : Bool) (range : ℕ → ℕ × ℕ) (d : K)
    {data rest : List (Line K)} {xs : List K} (hfmt : vecFormat (data ++ rest) = some (.ok .plain))
    (hd : List.Forall₂ OneNumber data xs) (hrest : countNums (rest.flatMap Line.words) = 0)
    (hrange : (range xs.length).2 ≤ xs.length) :
    Ok (inputVector io cplx range d (data ++ rest)) fun r => ∃ v, r = .ok (some v) ∧
      v.size = (range xs.length).2 - (range xs.length).1 ∧
      ∀ i, (range xs.length).1 ≤ i → (hi : i < (range xs.length).2) →
        v.get (i - (range xs.length).1) = io.re (xs[i]'(by omega)) := by
  unfold inputVector
  rw [hfmt, Option.bind_some]
  simp only
  unfold inputVectorPlain
  have hlen : data.length = xs.length := hd.length_eq
  have hcount : countNums ((data ++ rest).flatMap Line.words) = xs.length := by
    have h1 : ∀ w ∈ data.flatMap Line.words, w.num?.isSome := by
      clear hfmt hrange hlen
      induction hd with
      | nil => simp
      | cons h _ ih =>
        obtain ⟨w, h1, h2⟩ := h
        simp only [List.flatMap_cons, h1, List.mem_append, List.mem_singleton]
        rintro w' (rfl | h3)
        · simp [h2]
        · exact ih w' h3
    have h2 : (data.flatMap Line.words).length = data.length := by
      clear hfmt hrange hlen h1
      induction hd with
      | nil => rfl
      | cons h _ ih =>
        obtain ⟨w, h1, h2⟩ := h
        simp only [List.flatMap_cons, h1, List.length_append, List.length_cons, List.length_nil, ih]
        omega
    rw [List.flatMap_append, countNums_append _ _ h1, hrest, h2, hlen, Nat.add_zero]
  rw [hcount]
  by_cases hx : xs = []
  · subst hx
    simp only [List.length_nil] at hrange ⊢
    simp only [plainLoop, Option.map_some, Except.map, Ok_some]
    exact ⟨_, rfl, rfl, fun i _ hi => absurd hi (by omega)⟩
  have hx0 : 0 < xs.length := List.length_pos_iff.2 hx
  obtain ⟨r, hr, w, rfl, h1, h2⟩ := plainLoop_lines io (range xs.length).1 (range xs.length).2
    (fun i => xs[i]?.getD (xs[0])) xs.length 0 data rest ⟨(range xs.length).2 - (range xs.length).1, fun _ => 0⟩ hlen (by
      intro j hj
      have h3 := List.Forall₂.get hd hj (by omega)
      obtain ⟨w, h4, h5⟩ := h3
      simp only [List.get_eq_getElem] at h4 h5
      refine ⟨none, ?_⟩
      simp [scanVal, h4, h5, hlen ▸ hj]) rfl
  rw [hr]
  simp only [Option.map_some, Except.map, Ok_some]
  refine ⟨w, rfl, h1, fun i hi1 hi2 => ?_⟩
  rw [h2 i hi1 hi2, if_pos (by omega)]
  rw [List.getElem?_eq_getElem (by omega), Option.getD_some]

/-- **C62.** When the file has more numbers than lines (several numbers on one line, say), the read
fails: elements are counted as numbers but read one per line. -/
theorem inputVector_plain_crowded [Zero R] (io : NumIO K R) (cplx : Bool) (range : ℕ → ℕ × ℕ) (d : K)
    {file : List (Line K)} (hfmt : vecFormat file = some (.ok .plain))
    (h : file.length < countNums (file.flatMap Line.words)) :
    inputVector io cplx range d file = some (.error .fileIo) := by
  unfold inputVector
  rw [hfmt, Option.bind_some]
  simp only
  unfold inputVectorPlain
  simp only
  rw [plainLoop_short io _ _ _ _ _ _ h rfl]
  rfl

/-- the text printed for a number is neither over-long nor mistaken for a banner -/
structure Printer.Plain (pr : Printer K) : Prop where
  num : ∀ x, (pr.num x).txt.length < 128 ∧ (pr.num x).txt.head? ≠ some '%' ∧ (pr.num x).txt.head? ≠ some '#'
  int : ∀ z, (pr.int z).txt.length < 128 ∧ (pr.int z).txt.head? ≠ some '%' ∧ (pr.int z).txt.head? ≠ some '#'

theorem vecFormat_plain {w : Word K} {ws : List (Word K)} {b : Bool} {rest : List (Line K)}
    (h1 : w.txt.length < 128) (h2 : w.txt.head? ≠ some '%') (h3 : w.txt.head? ≠ some '#') :
    vecFormat (⟨b, w :: ws⟩ :: rest) = some (.ok .plain) := by
  unfold vecFormat
  simp only [if_pos h1]
  have hp : ∀ c s, w.txt.head? ≠ some c → (String.toList s).head? = some c → hasPrefix s w.txt = false := by
    intro c s hc hs
    unfold hasPrefix
    cases hl : s.toList with
    | nil => simp [hl] at hs
    | cons a l =>
      simp only [hl, List.head?_cons, Option.some.injEq] at hs
      subst hs
      cases hw : w.txt with
      | nil => rfl
      | cons a' l' =>
        simp only [hw, List.head?_cons, ne_eq, Option.some.injEq] at hc
        simp [List.isPrefixOf, Ne.symm hc]
  rw [if_neg (by rw [hp '%' _ h2 (by decide)]; decide), if_neg (by rw [hp '#' _ h3 (by decide)]; decide)]

theorem outputVectorPlain_eq (pr : Printer K) (pt : Parts K R) (ti : R → ℤ) (cplx : Bool) {v : OutVec R}
    (hv : v.n ≤ v.value.size) : outputVector pr pt ti cplx 1 v =
      some (.ok ((List.range v.n).map fun i => ⟨false, elemWords pr pt ti cplx v.int (v.value.get i)⟩)) := by
  unfold outputVector outputVectorPlain
  rw [if_pos rfl, loop_lines hv fun _ x => (⟨false, elemWords pr pt ti cplx v.int x⟩ : Line K)]
  rfl

theorem vecPlain_format {pr : Printer K} (hp : pr.Plain) (pt : Parts K R) (ti : R → ℤ) (cplx : Bool) {v : OutVec R}
    (hn : 0 < v.n) : vecFormat ((List.range v.n).map fun i =>
      (⟨false, elemWords pr pt ti cplx v.int (v.value.get i)⟩ : Line K)) = some (.ok .plain) := by
  obtain ⟨m, hm⟩ : ∃ m, v.n = m + 1 := ⟨v.n - 1, by omega⟩
  rw [hm, List.range_succ_eq_map, List.map_cons]
  unfold elemWords numWords
  cases v.int with
  | true =>
    have := hp.int (ti (v.value.get 0))
    exact vecFormat_plain this.1 this.2.1 this.2.2
  | false =>
    have := hp.num (pt.re (v.value.get 0))
    cases cplx with
    | true => exact vecFormat_plain this.1 this.2.1 this.2.2
    | false => exact vecFormat_plain this.1 this.2.1 this.2.2

theorem vecPlain_read [Zero R] {io : NumIO K R} {pr : Printer K} (hp : pr.Plain) (pt : Parts K R) (ti : R → ℤ)
    (cplx : Bool) {v : OutVec R} (hn : 0 < v.n) (range : ℕ → ℕ × ℕ) (hrange : (range v.n).2 ≤ v.n) (d : K)
    (x : R → K) (hx : ∀ i, i < v.n → OneNumber (⟨false, elemWords pr pt ti cplx v.int (v.value.get i)⟩ : Line K)
      (x (v.value.get i))) :
    Ok (inputVector io cplx range d ((List.range v.n).map fun i =>
      (⟨false, elemWords pr pt ti cplx v.int (v.value.get i)⟩ : Line K))) fun r => ∃ w, r = .ok (some w) ∧
        w.size = (range v.n).2 - (range v.n).1 ∧
        ∀ i, (range v.n).1 ≤ i → i < (range v.n).2 → w.get (i - (range v.n).1) = io.re (x (v.value.get i)) := by
  have hd : List.Forall₂ OneNumber ((List.range v.n).map fun i =>
      (⟨false, elemWords pr pt ti cplx v.int (v.value.get i)⟩ : Line K)) ((List.range v.n).map fun i => x (v.value.get i)) := by
    have : ∀ l : List ℕ, (∀ i ∈ l, i < v.n) → List.Forall₂ OneNumber (l.map fun i =>
        (⟨false, elemWords pr pt ti cplx v.int (v.value.get i)⟩ : Line K)) (l.map fun i => x (v.value.get i)) := by
      intro l
      induction l with
      | nil => intro _; exact .nil
      | cons a l ih => intro h; exact .cons (hx a (h a (by simp))) (ih fun i hi => h i (by simp [hi]))
    exact this _ fun i hi => List.mem_range.1 hi
  have := inputVector_plain io cplx range d (rest := []) (by rw [List.append_nil]; exact vecPlain_format hp pt ti cplx hn) hd
    rfl (by rw [List.length_map, List.length_range]; exact hrange)
  rw [List.append_nil] at this
  refine this.mono ?_
  rintro r ⟨w, rfl, h1, h2⟩
  simp only [List.length_map, List.length_range] at h1 h2
  refine ⟨w, rfl, h1, fun i hi1 hi2 => ?_⟩
  rw [h2 i hi1 hi2, List.getElem_map, List.getElem_range]

/-- **C62.** In the real build, a nonempty vector written with LIS_FMT_PLAIN and read back is the same
vector. -/
theorem vecPlain_roundTrip [Zero R] {io : NumIO K R} {pr : Printer K} (hpr : pr.Exact) (hp : pr.Plain)
    {pt : Parts K R} (ti : R → ℤ) (hpt : PartsOk io pt false) {v : OutVec R} (hv : v.n ≤ v.value.size)
    (hn : 0 < v.n) (hint : v.int = false) (range : ℕ → ℕ × ℕ) (hrange : (range v.n).2 ≤ v.n) (d : K) :
    ∃ lines, outputVector pr pt ti false 1 v = some (.ok lines) ∧
      Ok (inputVector io false range d lines) fun r => ∃ w, r = .ok (some w) ∧
        w.size = (range v.n).2 - (range v.n).1 ∧
        ∀ i, (range v.n).1 ≤ i → i < (range v.n).2 → w.get (i - (range v.n).1) = v.value.get i := by
  refine ⟨_, outputVectorPlain_eq pr pt ti false hv, ?_⟩
  refine (vecPlain_read hp pt ti false hn range hrange d pt.re fun i _ => ?_).mono ?_
  · rw [hint]; exact ⟨_, rfl, hpr.num _⟩
  · rintro r ⟨w, rfl, h1, h2⟩
    exact ⟨w, rfl, h1, fun i hi1 hi2 => by rw [h2 i hi1 hi2]; simpa using hpt (v.value.get i)⟩

/-- **C62.** An integer vector written with LIS_FMT_PLAIN is read back as its elements cast to `int`, in
every build. -/
theorem vecPlain_integer [Zero R] {io : NumIO K R} {pr : Printer K} (hp : pr.Plain)
    {ofInt : ℤ → K} (hi : ∀ z, (pr.int z).num? = some (ofInt z))
    {pt : Parts K R} (ti : R → ℤ) (cplx : Bool) {v : OutVec R} (hv : v.n ≤ v.value.size)
    (hn : 0 < v.n) (hint : v.int = true) (range : ℕ → ℕ × ℕ) (hrange : (range v.n).2 ≤ v.n) (d : K) :
    ∃ lines, outputVector pr pt ti cplx 1 v = some (.ok lines) ∧
      Ok (inputVector io cplx range d lines) fun r => ∃ w, r = .ok (some w) ∧
        w.size = (range v.n).2 - (range v.n).1 ∧
        ∀ i, (range v.n).1 ≤ i → i < (range v.n).2 →
          w.get (i - (range v.n).1) = io.re (ofInt (ti (v.value.get i))) := by
  refine ⟨_, outputVectorPlain_eq pr pt ti cplx hv, ?_⟩
  refine vecPlain_read hp pt ti cplx hn range hrange d (fun x => ofInt (ti x)) fun i _ => ?_
  rw [hint]; exact ⟨_, rfl, hi _⟩

/-- **C62 (finding).** In the complex build, a nonempty vector written with LIS_FMT_PLAIN cannot be read
back: `lis_input_vector` fails. -/
theorem vecPlain_complex_fails [Zero R] {io : NumIO K R} {pr : Printer K} (hpr : pr.Exact) (hp : pr.Plain)
    {pt : Parts K R} (ti : R → ℤ) {v : OutVec R} (hv : v.n ≤ v.value.size)
    (hn : 0 < v.n) (hint : v.int = false) (range : ℕ → ℕ × ℕ) (d : K) :
    ∃ lines, outputVector pr pt ti true 1 v = some (.ok lines) ∧
      inputVector io true range d lines = some (.error .fileIo) := by
  refine ⟨_, outputVectorPlain_eq pr pt ti true hv, ?_⟩
  refine inputVector_plain_crowded io true range d (vecPlain_format hp pt ti true hn) ?_
  have : ∀ l : List ℕ, countNums ((l.map fun i =>
      (⟨false, elemWords pr pt ti true v.int (v.value.get i)⟩ : Line K)).flatMap Line.words) = 2 * l.length := by
    intro l
    induction l with
    | nil => rfl
    | cons a l ih =>
      rw [List.map_cons, List.flatMap_cons, countNums_append, ih, hint]
      · simp only [elemWords, numWords, Bool.false_eq_true, if_false, if_true, List.length_cons, List.length_nil]
        omega
      · rw [hint]
        simp [elemWords, numWords, hpr.num]
  rw [this, List.length_map, List.length_range]
  omega

/-- **C62 (finding).** The file written for a vector of length 0 with LIS_FMT_PLAIN is empty, and reading
it fails. -/
theorem vecPlain_empty_fails [Zero R] (io : NumIO K R) (pr : Printer K) (pt : Parts K R) (ti : R → ℤ) (cplx : Bool)
    {v : OutVec R} (hn : v.n = 0) (range : ℕ → ℕ × ℕ) (d : K) :
    ∃ lines, outputVector pr pt ti cplx 1 v = some (.ok lines) ∧
      inputVector io cplx range d lines = some (.error .fileIo) := by
  refine ⟨_, outputVectorPlain_eq pr pt ti cplx (by omega), ?_⟩
  rw [hn]
  rfl

/-! ### files in Lis's own format -/

/-- **C62 (finding).** Whatever follows a first line `#LIS A vec`, reading the file never returns an
error code. -/
theorem inputVector_lis_success [Zero R] (io : NumIO K R) (cplx : Bool) (range : ℕ → ℕ × ℕ) (d : K)
    {l : Line K} (hl : l.words.map Word.txt = ["#LIS".toList, "A".toList, "vec".toList])
    {rest : List (Line K)} {e : Err} : inputVector io cplx range d (l :: rest) ≠ some (.error e) := by
  have hfmt : vecFormat (l :: rest) = some (.ok .lis) := by
    unfold vecFormat
    cases hw : l.words with
    | nil => simp [hw] at hl
    | cons w ws =>
      simp only [hw, List.map_cons, List.cons.injEq] at hl
      simp only [hw, hl.1]
      decide
  unfold inputVector
  rw [hfmt, Option.bind_some]
  simp only
  unfold inputVectorLis
  simp only [hl]
  rw [show cutWords ["#LIS".toList, "A".toList, "vec".toList] = ["#LIS".toList, "A".toList, "vec".toList] by decide]
  simp only
  rw [if_neg (by decide), if_neg (by decide), if_pos (by decide)]
  cases inputVectorLisAscii io d rest <;> simp

/-- **C62 (finding).** A file `#LIS A vec` / `1` / `# 0 n` / numbers, `n ≥ 1`, is read, with success, as
the vector whose first element is the first number of the file and whose other elements are zero:
`lis_fscan_scalar` stops after one element. -/
theorem inputVector_lis_first [Zero R] (io : NumIO K R) (cplx : Bool) (range : ℕ → ℕ × ℕ) (d : K)
    {l1 l2 l3 : Line K} {n : ℕ} (hn : 0 < n) {w0 w1 w2 w3 : Word K} {rest : List (Line K)}
    (h1 : l1.words.map Word.txt = ["#LIS".toList, "A".toList, "vec".toList])
    (h2 : l2.words = [w0]) (hw0 : w0.int? = some 1)
    (h3 : l3.words = [w1, w2, w3]) (hw1 : w1.txt = ['#']) (hw2 : w2.int? = some 0) (hw3 : w3.int? = some (n : ℤ))
    {w : Word K} {ws : List (Word K)} {x : K} (hd : rest.flatMap Line.words = w :: ws) (hx : w.num? = some x) :
    Ok (inputVector io cplx range d (l1 :: l2 :: l3 :: rest)) fun r => ∃ v, r = .ok (some v) ∧ v.size = n ∧
      v.get 0 = io.re x ∧ ∀ i, 0 < i → v.get i = 0 := by
  have hfmt : vecFormat (l1 :: l2 :: l3 :: rest) = some (.ok .lis) := by
    unfold vecFormat
    cases hw : l1.words with
    | nil => simp [hw] at h1
    | cons w ws =>
      simp only [hw, List.map_cons, List.cons.injEq] at h1
      simp only [hw, h1.1]
      decide
  unfold inputVector
  rw [hfmt, Option.bind_some]
  simp only
  unfold inputVectorLis
  simp only [h1]
  rw [show cutWords ["#LIS".toList, "A".toList, "vec".toList] = ["#LIS".toList, "A".toList, "vec".toList] by decide]
  simp only
  rw [if_neg (by decide), if_neg (by decide), if_pos (by decide)]
  unfold inputVectorLisAscii
  simp only [h2, scanInts, hw0, ne_eq, not_true_eq_false, if_false]
  simp only [lisFind, h3, hw1, if_true, scanInts, hw2, hw3, Option.bind_some]
  rw [if_neg (by omega)]
  obtain ⟨m, rfl⟩ : ∃ m, n = m + 1 := ⟨n - 1, by omega⟩
  simp only [Int.toNat_natCast, hd, fscanScalar, hx, Arr.wr]
  rw [if_pos (Nat.succ_pos m)]
  simp only [Option.map_some, Ok_some]
  refine ⟨_, rfl, rfl, Arr.set_get_self _ _ _, fun i hi => ?_⟩
  rw [Arr.set_get_ne _ _ (by omega)]

theorem outputVectorLis_eq (pr : Printer K) (pt : Parts K R) (ti : R → ℤ) (cplx : Bool) {v : OutVec R}
    (hv : v.n ≤ v.value.size) : ∃ rest, outputVector pr pt ti cplx 3 v =
      some (.ok (⟨false, [pr.word "#LIS", pr.word "A", pr.word "vec"]⟩ :: ⟨false, [pr.int 1]⟩ ::
        ⟨false, [pr.word "#", pr.int 0, pr.int v.n]⟩ :: rest)) ∧
      rest.flatMap Line.words = (List.range v.n).flatMap fun i => elemWords pr pt ti cplx v.int (v.value.get i) := by
  unfold outputVector outputVectorLis
  rw [if_neg (by decide), if_neg (by decide), if_pos rfl]
  have : Ok (loop 0 v.n ([], []) fun i (s : List (Line K) × List (Word K)) => do
      let x ← v.value.rd i
      let cur := s.2 ++ elemWords pr pt ti cplx v.int x
      pure (if (i + 1) % 3 = 0 then (s.1 ++ [⟨false, cur⟩], []) else (s.1, cur))) fun s =>
      s.1.flatMap Line.words ++ s.2 = ((List.range v.n).flatMap fun i => elemWords pr pt ti cplx v.int (v.value.get i)) ∧
        (v.n % 3 = 0 → s.2 = []) := by
    refine Ok_loop_le (fun i (s : List (Line K) × List (Word K)) => s.1.flatMap Line.words ++ s.2 =
      ((List.range i).flatMap fun i => elemWords pr pt ti cplx v.int (v.value.get i)) ∧ (i % 3 = 0 → s.2 = []))
      (Nat.zero_le _) ⟨rfl, fun _ => rfl⟩ ?_ fun s h => h
    rintro i ⟨ls, cur⟩ _ hi ⟨h1, h2⟩
    simp only at h1 h2
    simp only [Ok_bind, Ok_rd, Ok_pure]
    refine ⟨by omega, ?_⟩
    rw [List.range_succ, List.flatMap_append, ← h1]
    split
    · next h3 => exact ⟨by simp, fun _ => rfl⟩
    · next h3 => exact ⟨by simp, fun h => absurd h h3⟩
  obtain ⟨s, hs, h1, h2⟩ := this
  rw [hs]
  refine ⟨_, rfl, ?_⟩
  rw [← h1, List.flatMap_append]
  congr 1
  split
  · simp
  · next h3 => rw [h2 (by omega)]; rfl

/-- **C62 (finding).** In the real build, a vector written with LIS_FMT_LIS and read back comes back, with
success, with its first element and zeros otherwise. -/
theorem vecLis_first [Zero R] {io : NumIO K R} {pr : Printer K} (hpr : pr.Exact)
    {pt : Parts K R} (ti : R → ℤ) (hpt : PartsOk io pt false) {v : OutVec R} (hv : v.n ≤ v.value.size)
    (hn : 0 < v.n) (hint : v.int = false) (range : ℕ → ℕ × ℕ) (d : K) :
    ∃ lines, outputVector pr pt ti false 3 v = some (.ok lines) ∧
      Ok (inputVector io false range d lines) fun r => ∃ w, r = .ok (some w) ∧ w.size = v.n ∧
        w.get 0 = v.value.get 0 ∧ ∀ i, 0 < i → w.get i = 0 := by
  obtain ⟨rest, h1, h2⟩ := outputVectorLis_eq pr pt ti false hv
  obtain ⟨m, hm⟩ : ∃ m, v.n = m + 1 := ⟨v.n - 1, by omega⟩
  refine ⟨_, h1, ?_⟩
  rw [hm, List.range_succ_eq_map, List.flatMap_cons, hint] at h2
  have hl : ([pr.word "#LIS", pr.word "A", pr.word "vec"] : List (Word K)).map Word.txt =
      ["#LIS".toList, "A".toList, "vec".toList] := by
    simp only [List.map_cons, List.map_nil, hpr.word]
  have hh : (pr.word "#").txt = ['#'] := by rw [hpr.word]; decide
  refine (inputVector_lis_first io false range d (n := v.n) hn hl rfl (hpr.int 1) rfl hh
    (hpr.int 0) (hpr.int v.n) h2 (hpr.num (pt.re (v.value.get 0)))).mono ?_
  rintro r ⟨w, rfl, h3, h4, h5⟩
  exact ⟨w, rfl, h3, by rw [h4]; simpa using hpt (v.value.get 0), h5⟩

/-- **C62 (finding).** So LIS_FMT_LIS round trips exactly the vectors that are zero past their first
element. -/
theorem vecLis_roundTrip_iff [Zero R] {io : NumIO K R} {pr : Printer K} (hpr : pr.Exact)
    {pt : Parts K R} (ti : R → ℤ) (hpt : PartsOk io pt false) {v : OutVec R} (hv : v.n ≤ v.value.size)
    (hn : 0 < v.n) (hint : v.int = false) (range : ℕ → ℕ × ℕ) (d : K) :
    ∃ lines w, outputVector pr pt ti false 3 v = some (.ok lines) ∧
      inputVector io false range d lines = some (.ok (some w)) ∧ w.size = v.n ∧
      ((∀ i, i < v.n → w.get i = v.value.get i) ↔ ∀ i, 0 < i → i < v.n → v.value.get i = 0) := by
  obtain ⟨lines, h1, r, h2, w, rfl, h3, h4, h5⟩ := vecLis_first hpr ti hpt hv hn hint range d
  refine ⟨lines, w, h1, h2, h3, fun h i hi hin => by rw [← h i hin, h5 i hi], fun h i hi => ?_⟩
  by_cases h0 : i = 0
  · subst h0; exact h4
  · rw [h5 i (by omega), h i (by omega) hi]

/-- **C62.** Only the three formats can be written. -/
theorem outputVector_ill (pr : Printer K) (pt : Parts K R) (ti : R → ℤ) (cplx : Bool) (format : ℤ) (v : OutVec R)
    (h : format ≠ 1 ∧ format ≠ 2 ∧ format ≠ 3) : outputVector pr pt ti cplx format v = some (.error .illArg) := by
  unfold outputVector
  rw [if_neg h.1, if_neg h.2.1, if_neg h.2.2]

/-! ### a concrete case -/

/-- decimal text of an integer: the words a printer for integers produces -/
private def demoWord (z : ℤ) : Word ℤ := ⟨(toString z).toList, some z, some z⟩

private def demoPr : Printer ℤ := ⟨demoWord, fun x => ⟨['1'], none, some x⟩, fun s => ⟨s.toList, none, none⟩⟩
private def demoIO : NumIO ℤ ℤ := ⟨id, fun a b => a + 1000 * b, fun a b => a - 1000 * b⟩
private def demoPt : Parts ℤ ℤ := ⟨id, fun _ => 0⟩

private theorem demoPr_exact : demoPr.Exact := ⟨fun _ => rfl, fun _ => rfl, fun _ => rfl⟩
private theorem demoPt_ok : PartsOk demoIO demoPt false := fun v => by simp [demoIO, demoPt]

/-- the vector (3,5,7,9): Matrix Market gives it back, on the process owning elements 1 and 2 … -/
example : Ok ((outputVector demoPr demoPt id false 2 ⟨4, Arr.ofList [3, 5, 7, 9], false⟩).bind fun r =>
    match r with
    | .ok lines => inputVector demoIO false (fun _ => (1, 3)) 0 lines
    | .error _ => none) fun r => ∃ w, r = .ok (some w) ∧ w.toList = [5, 7] := by
  refine ⟨_, rfl, _, rfl, by decide⟩

/-- … and Lis's own format gives back (3,0,0,0) -/
example : Ok ((outputVector demoPr demoPt id false 3 ⟨4, Arr.ofList [3, 5, 7, 9], false⟩).bind fun r =>
    match r with
    | .ok lines => inputVector demoIO false (fun n => (0, n)) 0 lines
    | .error _ => none) fun r => ∃ w, r = .ok (some w) ∧ w.toList = [3, 0, 0, 0] := by
  refine ⟨_, rfl, _, rfl, by decide⟩

end Lis
