import Verif.Props.MMIO
import Verif.Base.Lists3

/-
C41: writing a matrix (and vectors) to a Matrix Market file and reading it back; C33: dense files,
vectors, and the inputs on which the reader misbehaves.
-/
namespace Lis
open Finset
variable {K R : Type}

/-- the printed number is read back unchanged: `%d` and `%28.20e` followed by `%d` and `%lg`, and a
literal word is printed as it is -/
structure Printer.Exact (pr : Printer K) : Prop where
  int : ∀ z, (pr.int z).int? = some z
  num : ∀ x, (pr.num x).num? = some x
  word : ∀ s, (pr.word s).txt = s.toList

/-- a scalar is recovered from its parts -/
def PartsOk (io : NumIO K R) (pt : Parts K R) (cplx : Bool) : Prop :=
  ∀ v, if cplx then io.cx (pt.re v) (pt.im v) = v else io.re (pt.re v) = v

/-- the file type of the build -/
def MMType.ofBuild (cplx : Bool) : MMType := if cplx then .complex else .real

/-- the parsed form of what is written for `v` -/
def imOf (pt : Parts K R) (cplx : Bool) (v : R) : Option K := if cplx then some (pt.im v) else none

theorem PartsOk.mir {io : NumIO K R} {pt : Parts K R} {cplx : Bool} (h : PartsOk io pt cplx) (v : R) :
    mirVal io (pt.re v) (imOf pt cplx v) = v := by
  have := h v
  cases cplx <;> simpa [imOf, mirVal] using this

/-- line written for element `(i,j)` -/
def matLine (pr : Printer K) (pt : Parts K R) (cplx : Bool) (i j : ℕ) (v : R) : Line K :=
  ⟨false, pr.int (i + 1) :: pr.int (j + 1) :: numWords pr pt cplx v⟩

theorem scan_matLine {pr : Printer K} (hpr : pr.Exact) (pt : Parts K R) (cplx : Bool) (i j : ℕ) (v : R) :
    scanMat (.ofBuild cplx) (matLine pr pt cplx i j v) = some ((i + 1 : ℤ), (j + 1 : ℤ), pt.re v, imOf pt cplx v) := by
  cases cplx <;> simp [scanMat, matLine, numWords, MMType.ofBuild, imOf, hpr.int, hpr.num]

/-- line written for element `i` of a vector -/
def vecLine (pr : Printer K) (pt : Parts K R) (cplx : Bool) (i : ℕ) (v : R) : Line K :=
  ⟨false, pr.int (i + 1) :: numWords pr pt cplx v⟩

theorem scan_vecLine {pr : Printer K} (hpr : pr.Exact) (pt : Parts K R) (cplx : Bool) (i : ℕ) (v : R) :
    scanVec (.ofBuild cplx) (vecLine pr pt cplx i v) = some ((i + 1 : ℤ), pt.re v, imOf pt cplx v) := by
  cases cplx <;> simp [scanVec, vecLine, numWords, MMType.ofBuild, imOf, hpr.int, hpr.num]

/-- positions and elements of `A`, row by row -/
def Csr.elems (A : Csr R) : List (ℕ × ℕ × R) :=
  emits 0 A.n fun i => emits (A.ptr.get i) (A.ptr.get (i + 1)) fun k => [(i, A.index.get k, A.value.get k)]

def recOf (pt : Parts K R) (cplx : Bool) (e : ℕ × ℕ × R) : Rec K :=
  (e.1 + 1, e.2.1 + 1, pt.re e.2.2, imOf pt cplx e.2.2)

theorem forall₂_map_left {α β γ : Type} {r : β → γ → Prop} (f : α → β) (g : α → γ) (l : List α)
    (h : ∀ a, r (f a) (g a)) : List.Forall₂ r (l.map f) (l.map g) := by
  induction l with
  | nil => exact .nil
  | cons a l ih => exact .cons (h a) ih

theorem mmVecLines_eq (pr : Printer K) (pt : Parts K R) (cplx : Bool) {n : ℕ} {v : Arr R} (hv : n ≤ v.size) :
    mmVecLines pr pt cplx n v = some ((List.range n).map fun i => vecLine pr pt cplx i (v.get i)) := by
  have : Ok (mmVecLines pr pt cplx n v) fun l => l = (List.range n).map fun i => vecLine pr pt cplx i (v.get i) := by
    unfold mmVecLines
    refine Ok_loop_le (fun i l => l = (List.range i).map fun i => vecLine pr pt cplx i (v.get i)) (Nat.zero_le _) rfl
      ?_ fun s h => h
    rintro i s _ hi rfl
    simp only [Ok_bind, Ok_rd, Ok_pure]
    exact ⟨by omega, by rw [List.range_succ, List.map_append]; rfl⟩
  obtain ⟨l, h1, rfl⟩ := this
  exact h1

theorem mmOutput_lines (pr : Printer K) (pt : Parts K R) (cplx : Bool) {A : Csr R} (hA : A.WF) :
    (loop 0 A.n [] fun i (acc : List (Line K)) => do
      let lo ← A.ptr.rd i
      let hi ← A.ptr.rd (i + 1)
      loop lo hi acc fun j (acc : List (Line K)) => do
        let jj ← A.index.rd j
        let v ← A.value.rd j
        pure (acc ++ [⟨false, pr.int (i + 1) :: pr.int (jj + 1) :: numWords pr pt cplx v⟩])) =
    some (A.elems.map fun e => matLine pr pt cplx e.1 e.2.1 e.2.2) := by
  have hsz := hA.ptr.size
  have main : Ok (loop 0 A.n [] fun i (acc : List (Line K)) => do
      let lo ← A.ptr.rd i
      let hi ← A.ptr.rd (i + 1)
      loop lo hi acc fun j (acc : List (Line K)) => do
        let jj ← A.index.rd j
        let v ← A.value.rd j
        pure (acc ++ [⟨false, pr.int (i + 1) :: pr.int (jj + 1) :: numWords pr pt cplx v⟩])) fun l =>
      l = A.elems.map fun e => matLine pr pt cplx e.1 e.2.1 e.2.2 := by
    refine Ok_emit (em := fun i => emits (A.ptr.get i) (A.ptr.get (i + 1)) fun k => [(i, A.index.get k, A.value.get k)])
      (fun (pre : List (ℕ × ℕ × R)) s => s = pre.map fun e => matLine pr pt cplx e.1 e.2.1 e.2.2) (E := []) (Nat.zero_le _) rfl ?_ ?_
    · rintro i s _ hi hs _
      simp only [Ok_bind, Ok_rd]
      refine ⟨by omega, by omega, ?_⟩
      refine Ok_emit (fun (pre : List (ℕ × ℕ × R)) s => s = pre.map fun e => matLine pr pt cplx e.1 e.2.1 e.2.2) (hA.ptr.mono i hi) hs ?_
        fun s h => h
      rintro k s _ hk hs _
      have h1 : A.ptr.get (i + 1) ≤ A.nnz := by
        rw [← hA.ptr.last]
        have : ∀ m, i + 1 ≤ m → m ≤ A.n → A.ptr.get (i + 1) ≤ A.ptr.get m := by
          intro m hm
          induction m, hm using Nat.le_induction with
          | base => intro _; exact le_rfl
          | succ m hm ih => intro h; exact (ih (by omega)).trans (hA.ptr.mono m (by omega))
        exact this A.n hi le_rfl
      have h2 := hA.isz
      have h3 := hA.vsz
      simp only [Ok_bind, Ok_rd, Ok_pure]
      refine ⟨by omega, by omega, ?_⟩
      simp only [hs, List.map_append, List.map_cons, List.map_nil, matLine]
    · intro s h; rw [List.nil_append] at h; exact h
  obtain ⟨l, h1, rfl⟩ := main
  exact h1

theorem Csr.elems_length {A : Csr R} (hA : A.WF) : A.elems.length = A.nnz := by
  unfold Csr.elems
  rw [emits_length, ← hA.ptr.last]
  have : ∀ m, m ≤ A.n → ∑ j ∈ Ico 0 m, (emits (A.ptr.get j) (A.ptr.get (j + 1)) fun k =>
      [(j, A.index.get k, A.value.get k)]).length = A.ptr.get m := by
    intro m
    induction m with
    | zero => intro _; simp [hA.ptr.zero]
    | succ m ih =>
      intro hm
      rw [sum_Ico_succ_top (Nat.zero_le _), ih (by omega), emits_length]
      have := hA.ptr.mono m (by omega)
      simp only [List.length_singleton, sum_const, Nat.card_Ico, smul_eq_mul, mul_one]
      omega
  exact this A.n le_rfl

/-! ### the file read back -/

theorem emAll_emits (io : NumIO K R) (st : MMStruct) (is ie lo hi : ℕ) (em : ℕ → List (Rec K)) :
    emAll io st is ie (emits lo hi em) = emits lo hi fun j => emAll io st is ie (em j) := by
  unfold emAll emits
  rw [List.flatMap_assoc]

theorem byKey_emits_rows {α : Type} {n i : ℕ} (hi : i < n) {em : ℕ → List (ℕ × α)}
    (h : ∀ j, j < n → ∀ e ∈ em j, e.1 = j) : byKey i (emits 0 n em) = (em i).map Prod.snd := by
  have hself : ∀ L : List (ℕ × α), (∀ e ∈ L, e.1 = i) → byKey i L = L.map Prod.snd := by
    intro L
    induction L with
    | nil => intro _; rfl
    | cons e L ih =>
      intro hL
      rw [show e :: L = [e] ++ L from rfl, byKey_append, byKey_single, if_pos (hL e (by simp)),
        ih fun x hx => hL x (by simp [hx])]
      rfl
  have hne : ∀ (L : List (ℕ × α)) (j : ℕ), j ≠ i → (∀ e ∈ L, e.1 = j) → byKey i L = [] := by
    intro L j hj
    induction L with
    | nil => intro _; rfl
    | cons e L ih =>
      intro hL
      rw [show e :: L = [e] ++ L from rfl, byKey_append, byKey_single,
        if_neg (by rw [hL e (by simp)]; exact hj), ih fun x hx => hL x (by simp [hx])]
      rfl
  have main : ∀ m, m ≤ n → byKey i (emits 0 m em) = if i < m then (em i).map Prod.snd else [] := by
    intro m
    induction m with
    | zero => intro _; simp [emits_self]
    | succ m ih =>
      intro hm
      rw [emits_succ (Nat.zero_le _), byKey_append, ih (by omega)]
      by_cases h1 : i < m
      · rw [if_pos h1, if_pos (by omega), hne _ m (by omega) (h m (by omega)), List.append_nil]
      · by_cases h2 : i = m
        · subst h2; rw [if_neg h1, if_pos (by omega), hself _ (h i hi)]; rfl
        · rw [if_neg h1, if_neg (by omega), hne _ m (fun hh => h2 hh.symm) (h m (by omega))]; rfl
  rw [main n le_rfl, if_pos hi]

theorem emits_single {α : Type} (lo hi : ℕ) (f : ℕ → α) :
    emits lo hi (fun k => [f k]) = (List.range (hi - lo)).map fun q => f (lo + q) := by
  unfold emits
  rw [List.range'_eq_map_range, List.flatMap_map]
  induction hi - lo with
  | zero => rfl
  | succ n ih => rw [List.range_succ, List.flatMap_append, List.map_append, ih]; rfl

/-- the two CSR structures hold the same rows, element by element -/
structure SameCsr (A : Csr R) (B : MMCsr R) : Prop where
  n : B.n = A.n
  nnz : B.nnz = A.nnz
  ptr : ∀ i, i ≤ A.n → B.ptr.get i = A.ptr.get i
  elem : ∀ k, k < A.nnz → B.index.get k = A.index.get k ∧ B.value.get k = A.value.get k
  wf : B.WF

theorem MMBuilt.same {io : NumIO K R} {pt : Parts K R} {cplx : Bool} (hpt : PartsOk io pt cplx)
    {A : Csr R} (hA : A.WF) {B : MMCsr R}
    (h : MMBuilt io .general 0 A.n (A.elems.map (recOf pt cplx)) B) : SameCsr A B := by
  have hem : emAll io .general 0 A.n (A.elems.map (recOf pt cplx)) =
      emits 0 A.n fun i => emits (A.ptr.get i) (A.ptr.get (i + 1)) fun k =>
        [(i, (A.index.get k : ℤ), A.value.get k)] := by
    have h1 : A.elems.map (recOf pt cplx) = emits 0 A.n fun i => emits (A.ptr.get i) (A.ptr.get (i + 1)) fun k =>
        [recOf pt cplx (i, A.index.get k, A.value.get k)] := by
      unfold Csr.elems emits
      rw [List.map_flatMap]
      congr 1; funext i
      rw [List.map_flatMap]
      rfl
    rw [h1, emAll_emits]
    unfold emits
    refine List.flatMap_congr fun i hi => ?_
    simp only [List.mem_range'_1] at hi
    rw [show (List.flatMap (fun k => [recOf pt cplx (i, A.index.get k, A.value.get k)])
        (List.range' (A.ptr.get i) (A.ptr.get (i + 1) - A.ptr.get i))) =
        emits (A.ptr.get i) (A.ptr.get (i + 1)) fun k => [recOf pt cplx (i, A.index.get k, A.value.get k)] from rfl,
      emAll_emits]
    unfold emits
    refine List.flatMap_congr fun k _ => ?_
    have hd : dirVal io .general (pt.re (A.value.get k)) (imOf pt cplx (A.value.get k)) = A.value.get k := by
      refine Eq.trans ?_ (hpt.mir (A.value.get k))
      cases imOf pt cplx (A.value.get k) <;> rfl
    simp only [emAll, List.flatMap_cons, List.flatMap_nil, List.append_nil, emMir, emDir, recOf,
      MMStruct.mirrors, Bool.false_and, Bool.false_eq_true, false_and, if_false, List.nil_append, hd]
    rw [if_pos (by omega)]
    congr 1
    ext1 <;> simp
  have hrow : ∀ i, i < A.n → byKey i (emAll io .general 0 A.n (A.elems.map (recOf pt cplx))) =
      (List.range (A.ptr.get (i + 1) - A.ptr.get i)).map fun q =>
        ((A.index.get (A.ptr.get i + q) : ℤ), A.value.get (A.ptr.get i + q)) := by
    intro i hi
    rw [hem, byKey_emits_rows hi, emits_single, List.map_map]
    · rfl
    · intro j hj e he
      rw [emits_mem] at he
      obtain ⟨k, _, _, hk⟩ := he
      simp only [List.mem_singleton] at hk
      rw [hk]
  have hptr : ∀ i, i ≤ A.n → B.ptr.get i = A.ptr.get i := by
    intro i
    induction i with
    | zero => intro _; rw [h.p0, hA.ptr.zero]
    | succ i ih =>
      intro hi
      have hm := hA.ptr.mono i (by omega)
      rw [h.segs.succ i (by omega), hrow i (by omega), ih (by omega), List.length_map, List.length_range]
      omega
  have hnnz : B.nnz = A.nnz := by rw [h.nnz, Nat.sub_zero, hptr _ le_rfl, hA.ptr.last]
  refine ⟨by rw [h.n]; omega, hnnz, hptr, fun k hk => ?_, h.wf⟩
  obtain ⟨iw, hsc⟩ := h.scat
  obtain ⟨i, hi, h1, h2⟩ : ∃ i, i < A.n ∧ A.ptr.get i ≤ k ∧ k < A.ptr.get (i + 1) := by
    have : ∀ m, m ≤ A.n → k < A.ptr.get m → ∃ i, i < m ∧ A.ptr.get i ≤ k ∧ k < A.ptr.get (i + 1) := by
      intro m
      induction m with
      | zero => intro _ hk; rw [hA.ptr.zero] at hk; omega
      | succ m ih =>
        intro hm hk
        by_cases hc : k < A.ptr.get m
        · obtain ⟨i, a, b⟩ := ih (by omega) hc; exact ⟨i, by omega, b⟩
        · exact ⟨m, by omega, by omega, hk⟩
    exact this _ le_rfl (by rw [hA.ptr.last]; exact hk)
  have := hsc.put i (by omega) (k - A.ptr.get i) (by rw [hrow i hi]; simp; omega)
  simp only [hrow i hi, List.getElem_map, List.getElem_range] at this
  rw [hptr i (by omega), show A.ptr.get i + (k - A.ptr.get i) = k by omega] at this
  simp only [Prod.mk.injEq] at this
  exact this

/-! ### vectors -/

/-- reading lines that list a vector's elements in order -/
theorem mmReadB_lines [Zero R] {io : NumIO K R} {pr : Printer K} (hpr : pr.Exact) {pt : Parts K R} {cplx : Bool}
    (hpt : PartsOk io pt cplx) (n : ℕ) (v : Arr R) (last : ℤ × K × K) (rest : List (Line K)) :
    Ok (mmReadB io (.ofBuild cplx) 0 n n last
      (((List.range n).map fun i => vecLine pr pt cplx i (v.get i)) ++ rest)) fun r =>
      ∃ w l, r = .ok ((w, l), rest) ∧ w.size = n ∧ ∀ i, i < n → w.get i = v.get i := by
  unfold mmReadB
  have hp := parseN_append (scan := scanVec (.ofBuild cplx)) ((List.range n).map fun i => vecLine pr pt cplx i (v.get i)) rest
    ((List.range n).map fun i : ℕ => ((i + 1 : ℤ), pt.re (v.get i), imOf pt cplx (v.get i)))
    (forall₂_map_left _ _ _ fun i => scan_vecLine hpr pt cplx i (v.get i))
  rw [List.length_map, List.length_range] at hp
  refine (Ok_readLoop_some (es := (List.range n).map fun i : ℕ => ((i + 1 : ℤ), pt.re (v.get i), imOf pt cplx (v.get i)))
    (fun pre s => s.1.size = n ∧ ∀ i, i < pre.length → s.1.get i = v.get i) _ _ [] _ _ hp rfl
    ⟨by simp, by simp⟩ ?_).mono ?_
  · rintro pre a ⟨w, l⟩ hpre ⟨h1, h2⟩
    simp only at h1 h2
    have hlen : pre.length < n := by
      have := hpre.length_le
      simp only [List.length_append, List.length_singleton, List.length_map, List.length_range] at this
      omega
    have ha : a = ((pre.length + 1 : ℤ), pt.re (v.get pre.length), imOf pt cplx (v.get pre.length)) := by
      obtain ⟨t, ht⟩ := hpre
      have h3 : (pre ++ [a] ++ t)[pre.length]? = some a := by simp
      rw [ht, List.getElem?_map, List.getElem?_range hlen] at h3
      simp only [Option.map_some, Option.some.injEq] at h3
      rw [← h3]
    subst ha
    simp only
    rw [if_pos (by omega)]
    simp only [Ok_bind, Ok_wrI, Ok_pure]
    refine ⟨by omega, by omega, by simpa, fun i hi => ?_⟩
    simp only [List.length_append, List.length_singleton] at hi
    rw [Arr.set_get]
    split
    · next hh =>
      rw [hpt.mir]
      congr 1
      omega
    · exact h2 i (by omega)
  · rintro r ⟨⟨w, l⟩, rfl, h1, h2⟩
    simp only [List.length_map, List.length_range] at h1 h2
    exact ⟨w, l, rfl, h1, h2⟩

/-- **C33 (finding).** For a complex file, the values read for `x` do not depend on the lines of the
file that list `x` (only on how many there are): those lines are read but never scanned. -/
theorem mmReadX_complex_ignores [Zero R] (io : NumIO K R) (is ie gn : ℕ) (last : ℤ × K × K)
    (data data' rest : List (Line K)) (h1 : data.length = gn) (h2 : data'.length = gn) :
    mmReadX io .complex is ie gn last (data ++ rest) = mmReadX io .complex is ie gn last (data' ++ rest) := by
  unfold mmReadX
  simp only
  generalize ((⟨ie - is, fun _ => 0⟩, last) : Arr R × (ℤ × K × K)) = s
  induction gn generalizing data data' s with
  | zero => rw [List.length_eq_zero_iff.1 h1, List.length_eq_zero_iff.1 h2]
  | succ k ih =>
    cases data with
    | nil => simp at h1
    | cons l data =>
      cases data' with
      | nil => simp at h2
      | cons l' data' =>
        simp only [List.cons_append, readLoop]
        congr 1
        funext s
        exact ih data data' (by simpa using h1) (by simpa using h2) s

/-! ### C41: write, then read -/

theorem banner_written {pr : Printer K} (hpr : pr.Exact) (cplx : Bool) :
    BannerLine (⟨true, [pr.word "%%MatrixMarket", pr.word "matrix", pr.word "coordinate",
      pr.word (if cplx then "complex" else "real"), pr.word "general"]⟩ : Line K) .coo (.ofBuild cplx) .general := by
  refine ⟨"matrix".toList, "coordinate".toList, (if cplx then "complex" else "real").toList, "general".toList, ?_, ?_⟩
  · simp only [List.map_cons, List.map_nil, hpr.word]
  · cases cplx <;> decide

theorem sizeLine_written {pr : Printer K} (hpr : pr.Exact) (gn nnz : ℕ) (isb isx : Bool) :
    SizeLine (⟨false, if (!isb && !isx) = true then [pr.int gn, pr.int gn, pr.int nnz]
      else [pr.int gn, pr.int gn, pr.int nnz, pr.int (if isb then 1 else 0),
        pr.int (if isx then 1 else 0)]⟩ : Line K) gn nnz isb isx := by
  refine ⟨rfl, pr.int gn, pr.int gn, pr.int nnz, hpr.int _, hpr.int _, hpr.int _, ?_⟩
  cases isb <;> cases isx <;> simp [hpr.int]

/-- the matrix part of a file written by `lis_output` is read back exactly, up to the vectors -/
theorem mmInput_written [Zero R] {io : NumIO K R} {pr : Printer K} (hpr : pr.Exact) {pt : Parts K R} {cplx : Bool}
    (hpt : PartsOk io pt cplx) {A : Csr R} (hA : A.WF) (hn : 0 < A.n) (isb isx vecs : Bool) (tl : List (Line K))
    (J : MMJunk K R) {Q : Except Err (MMRes R) → Prop}
    (hq : ∀ B : MMCsr R, SameCsr A B →
      if vecs then
        Ok (mmVec io (.ofBuild cplx) 0 A.n A.n (if isb then 1 else 0) (if isx then 1 else 0) J.last tl) fun r =>
          ∃ b x, r = .ok (b, x) ∧ Q (.ok (.csr B b x))
      else Q (.ok (.csr B none none))) :
    Ok (mmInput io cplx vecs J (mmHeader pr cplx A.n A.nnz isb isx ++
      ((A.elems.map fun e => matLine pr pt cplx e.1 e.2.1 e.2.2) ++ tl))) Q := by
  unfold mmInput mmHeader
  rw [List.cons_append, mmBanner_spec cplx (banner_written hpr cplx)
    (by cases cplx <;> simp [MMType.ofBuild]) (.inr (by simp)), Option.bind_some]
  simp only [List.cons_append, List.nil_append, List.tail_cons, Ok_obind]
  unfold mmCsr
  have hs := (sizeLine_written hpr A.n A.nnz isb isx).size J.size []
    ((A.elems.map fun e => matLine pr pt cplx e.1 e.2.1 e.2.2) ++ tl) (by simp)
  rw [List.nil_append] at hs
  rw [hs]
  simp only
  rw [if_neg (by omega)]
  simp only [ne_eq, not_true_eq_false, if_false, Ok_obind, Int.toNat_natCast]
  have hp := parseN_append (scan := scanMat (.ofBuild cplx)) (A.elems.map fun e => matLine pr pt cplx e.1 e.2.1 e.2.2) tl
    (A.elems.map (recOf pt cplx)) (forall₂_map_left _ _ _ fun e => scan_matLine hpr pt cplx _ _ _)
  rw [List.length_map, Csr.elems_length hA] at hp
  refine (Ok_mmCsrRows io (.ofBuild cplx) .general 0 A.n A.nnz _ J.nat J.int J.val).mono ?_
  rw [Int.toNat_natCast, hp]
  rintro r ⟨B, rfl, hB⟩
  have hB' := hB.same hpt hA
  have hq' := hq B hB'
  simp only
  cases vecs with
  | false =>
    simp only [Bool.false_eq_true, if_false, Ok_some] at hq' ⊢
    exact hq'
  | true =>
    simp only [if_true, Ok_obind] at hq' ⊢
    refine hq'.mono ?_
    rintro r ⟨b, x, rfl, hr⟩
    simp only [Ok_some]
    exact hr

/-- **C41.** A matrix written with `lis_output_matrix` and read back with `lis_input_matrix` is the
same CSR structure, element by element (numbers being printed and scanned exactly). -/
theorem mm_roundTrip [Zero R] {io : NumIO K R} {pr : Printer K} (hpr : pr.Exact) {pt : Parts K R} {cplx : Bool}
    (hpt : PartsOk io pt cplx) {A : Csr R} (hA : A.WF) (hn : 0 < A.n) (J : MMJunk K R) :
    ∃ lines, mmOutput pr pt cplx A none none = some lines ∧
      Ok (mmInput io cplx false J lines) fun r => ∃ B, r = .ok (.csr B none none) ∧ SameCsr A B := by
  refine ⟨_, by unfold mmOutput; rw [mmOutput_lines pr pt cplx hA]; rfl, ?_⟩
  rw [List.append_nil]
  refine mmInput_written hpr hpt hA hn false false false [] J fun B hB => ?_
  simp only [Bool.false_eq_true, if_false]
  exact ⟨B, rfl, hB⟩

/-- **C41.** With a right-hand side: matrix and `b` are read back exactly. -/
theorem mm_roundTrip_b [Zero R] {io : NumIO K R} {pr : Printer K} (hpr : pr.Exact) {pt : Parts K R} {cplx : Bool}
    (hpt : PartsOk io pt cplx) {A : Csr R} (hA : A.WF) (hn : 0 < A.n) (J : MMJunk K R) {b : Arr R} (hb : A.n ≤ b.size) :
    ∃ lines, mmOutput pr pt cplx A (some b) none = some lines ∧
      Ok (mmInput io cplx true J lines) fun r => ∃ B b', r = .ok (.csr B (some b') none) ∧ SameCsr A B ∧
        b'.size = A.n ∧ ∀ i, i < A.n → b'.get i = b.get i := by
  refine ⟨_, by unfold mmOutput; rw [mmOutput_lines pr pt cplx hA]; simp only [Option.bind_some, mmVecLines_eq pr pt cplx hb]; rfl, ?_⟩
  rw [List.append_nil, List.append_assoc]
  refine mmInput_written hpr hpt hA hn true false true _ J fun B hB => ?_
  simp only [if_true, Bool.false_eq_true, if_false]
  unfold mmVec
  rw [if_neg (by simp)]
  simp only [ne_eq, one_ne_zero, not_false_eq_true, if_true, not_true_eq_false, if_false, Ok_obind]
  have := mmReadB_lines (io := io) hpr hpt A.n b J.last []
  rw [List.append_nil] at this
  obtain ⟨r, h1, w, l, rfl, h3, h4⟩ := this
  rw [h1]
  simp only [Option.map_some, Except.map, Ok_some]
  exact ⟨_, rfl, _, _, rfl, B, w, rfl, hB, h3, h4⟩

/-- **C41 (finding).** With both vectors, in the real build: the file's `x` is a copy of `b`, so what
is read back as `x` is `b`, whatever `x` was. -/
theorem mm_roundTrip_x_is_b [Zero R] {io : NumIO K R} {pr : Printer K} (hpr : pr.Exact) {pt : Parts K R}
    (hpt : PartsOk io pt false) {A : Csr R} (hA : A.WF) (hn : 0 < A.n) (J : MMJunk K R) {b : Arr R} (hb : A.n ≤ b.size)
    (x : Arr R) :
    ∃ lines, mmOutput pr pt false A (some b) (some x) = some lines ∧
      Ok (mmInput io false true J lines) fun r => ∃ B b' x', r = .ok (.csr B (some b') (some x')) ∧ SameCsr A B ∧
        (∀ i, i < A.n → b'.get i = b.get i) ∧ ∀ i, i < A.n → x'.get i = b.get i := by
  refine ⟨_, by unfold mmOutput; rw [mmOutput_lines pr pt false hA]; simp only [Option.bind_some, mmVecLines_eq pr pt false hb]; rfl, ?_⟩
  rw [List.append_assoc, List.append_assoc]
  refine mmInput_written hpr hpt hA hn true true true _ J fun B hB => ?_
  simp only [if_true]
  unfold mmVec
  rw [if_neg (by simp)]
  simp only [ne_eq, one_ne_zero, not_false_eq_true, if_true, Ok_obind]
  obtain ⟨r, h1, w, l, rfl, h3, h4⟩ := mmReadB_lines (io := io) hpr hpt A.n b J.last
    ((List.range A.n).map fun i => vecLine pr pt false i (b.get i))
  rw [h1]
  simp only [Option.map_some, Except.map, Ok_some]
  have := mmReadB_lines (io := io) hpr hpt A.n b l []
  rw [List.append_nil] at this
  obtain ⟨r, h1', w', l', rfl, h3', h4'⟩ := this
  simp only [MMType.ofBuild, Bool.false_eq_true, if_false, mmReadX] at h1' ⊢
  rw [h1']
  simp only [Option.map_some, Ok_some]
  exact ⟨_, rfl, _, _, rfl, B, w, w', rfl, hB, h4, h4'⟩

/-- **C41 (finding).** Writing `x` without `b` dereferences the null array of `b`. -/
theorem mmOutput_x_without_b (pr : Printer K) (pt : Parts K R) (cplx : Bool) {A : Csr R} (hA : A.WF) (hn : 0 < A.n)
    (x : Arr R) : mmOutput pr pt cplx A none (some x) = none := by
  unfold mmOutput
  rw [mmOutput_lines pr pt cplx hA]
  simp only [Option.bind_some]
  rw [if_neg (by omega)]
  rfl

end Lis
