import Verif.Lemmas.MMIO

/-
C33: what reading a Matrix Market file produces.
-/
namespace Lis
open Finset
variable {K R : Type}

/-! ### the entries -/

/-- the entry listed by a parsed line -/
def entOf (io : NumIO K R) (e : Rec K) : MMEnt R := ⟨e.1, e.2.1, mirVal io e.2.2.1 e.2.2.2⟩

theorem EntryLine.scan {io : NumIO K R} {t : MMType} {l : Line K} {e : MMEnt R} (h : EntryLine io t l e) :
    ∃ r, scanMat t l = some r ∧ e = entOf io r ∧ (t = .real → r.2.2.2 = none) := by
  obtain ⟨a, b, x, ws, re, hw, ha, hb, hx, ht⟩ := h
  obtain ⟨er, ec, ev⟩ := e
  simp only at ha hb
  unfold scanMat
  simp only [hw, ha, hb, hx]
  cases t with
  | real => exact ⟨_, rfl, by simp only at ht; subst ht; rfl, fun _ => rfl⟩
  | complex =>
    obtain ⟨y, ws', im, rfl, hy, hv⟩ := ht
    simp only [hy]
    exact ⟨_, rfl, by simp only at hv; subst hv; rfl, fun h => by cases h⟩

theorem EntryLine.scans {io : NumIO K R} {t : MMType} {data : List (Line K)} {E : List (MMEnt R)}
    (h : List.Forall₂ (EntryLine io t) data E) :
    ∃ es, List.Forall₂ (fun l a => scanMat t l = some a) data es ∧ E = es.map (entOf io) ∧
      (t = .real → ∀ e ∈ es, e.2.2.2 = none) := by
  induction h with
  | nil => exact ⟨[], .nil, rfl, by simp⟩
  | cons h1 h2 ih =>
    obtain ⟨es, e1, e2, e3⟩ := ih
    obtain ⟨r, r1, r2, r3⟩ := h1.scan
    refine ⟨r :: es, .cons r1 e1, by rw [e2, r2]; rfl, fun ht => ?_⟩
    rintro e he
    rcases List.mem_cons.1 he with rfl | he
    · exact r3 ht
    · exact e3 ht e he

theorem emAll_sum [AddCommMonoid R] (io : NumIO K R) (st : MMStruct) (is ie : ℕ) (es : List (Rec K))
    {i : ℕ} (hi : i < ie - is) (j : ℤ) :
    ((emAll io st is ie es).map fun x => if x.1 = i then (if x.2.1 = j then x.2.2 else 0) else 0).sum =
      (es.map fun e : Rec K => if e.1 = ((is + i : ℕ) : ℤ) + 1 ∧ e.2.1 = j + 1 then dirVal io st e.2.2.1 e.2.2.2 else 0).sum +
      if st.mirrors = true then mmMirror id (es.map (entOf io)) ((is + i : ℕ) : ℤ) j else 0 := by
  induction es with
  | nil => simp [emAll, mmMirror]
  | cons e es ih =>
    have hmir : (if st.mirrors = true then mmMirror id ((e :: es).map (entOf io)) ((is + i : ℕ) : ℤ) j else 0) =
        (if st.mirrors = true ∧ e.1 ≠ e.2.1 ∧ e.2.1 = ((is + i : ℕ) : ℤ) + 1 ∧ e.1 = j + 1 then
          mirVal io e.2.2.1 e.2.2.2 else 0) +
        if st.mirrors = true then mmMirror id (es.map (entOf io)) ((is + i : ℕ) : ℤ) j else 0 := by
      by_cases hm : st.mirrors = true
      · rw [if_pos hm, if_pos hm]
        unfold mmMirror
        rw [List.map_cons, List.map_cons, List.sum_cons]
        simp only [entOf, id, hm, true_and]
        rfl
      · rw [if_neg hm, if_neg hm, if_neg (fun h => hm h.1), add_zero]
    have hcons : emAll io st is ie (e :: es) = emMir io st is ie e ++ emDir io st is ie e ++ emAll io st is ie es := by
      simp [emAll]
    rw [hcons, hmir, List.map_append, List.map_append, List.sum_append, List.sum_append, ih, List.map_cons,
      List.sum_cons]
    have h1 : ((emMir io st is ie e).map fun x => if x.1 = i then (if x.2.1 = j then x.2.2 else 0) else 0).sum =
        (if st.mirrors = true ∧ e.1 ≠ e.2.1 ∧ e.2.1 = ((is + i : ℕ) : ℤ) + 1 ∧ e.1 = j + 1 then
          mirVal io e.2.2.1 e.2.2.2 else 0) := by
      by_cases hc : (st.mirrors && e.1 != e.2.1) = true ∧ (is : ℤ) < e.2.1 ∧ e.2.1 ≤ ie
      · rw [emMir, if_pos hc]
        simp only [Bool.and_eq_true, bne_iff_ne] at hc
        simp only [List.map_cons, List.map_nil, List.sum_cons, List.sum_nil, add_zero]
        by_cases hk : (e.2.1 - is - 1).toNat = i
        · rw [if_pos hk]
          by_cases hj : e.1 - 1 = j
          · rw [if_pos hj, if_pos ⟨hc.1.1, hc.1.2, by omega, by omega⟩]
          · rw [if_neg hj, if_neg (fun h => hj (by omega))]
        · rw [if_neg hk, if_neg (fun h => hk (by omega))]
      · rw [emMir, if_neg hc]
        simp only [List.map_nil, List.sum_nil]
        rw [if_neg]
        rintro ⟨a1, a2, a3, a4⟩
        exact hc ⟨by simp [a1, a2], by omega, by omega⟩
    have h2 : ((emDir io st is ie e).map fun x => if x.1 = i then (if x.2.1 = j then x.2.2 else 0) else 0).sum =
        (if e.1 = ((is + i : ℕ) : ℤ) + 1 ∧ e.2.1 = j + 1 then dirVal io st e.2.2.1 e.2.2.2 else 0) := by
      by_cases hc : (is : ℤ) < e.1 ∧ e.1 ≤ ie
      · rw [emDir, if_pos hc]
        simp only [List.map_cons, List.map_nil, List.sum_cons, List.sum_nil, add_zero]
        by_cases hk : (e.1 - is - 1).toNat = i
        · rw [if_pos hk]
          by_cases hj : e.2.1 - 1 = j
          · rw [if_pos hj, if_pos ⟨by omega, by omega⟩]
          · rw [if_neg hj, if_neg (fun h => hj (by omega))]
        · rw [if_neg hk, if_neg (fun h => hk (by omega))]
      · rw [emDir, if_neg hc]
        simp only [List.map_nil, List.sum_nil]
        rw [if_neg]
        rintro ⟨a1, a2⟩
        exact hc ⟨by omega, by omega⟩
    rw [h1, h2]
    rw [add_comm (ite _ _ _) (ite _ _ _)]
    exact add_add_add_comm _ _ _ _

theorem MMBuilt.wf {io : NumIO K R} {st : MMStruct} {is ie : ℕ} {es : List (Rec K)} {A : MMCsr R}
    (h : MMBuilt io st is ie es A) : A.WF := by
  refine ⟨⟨by rw [h.n, h.psz], h.p0, fun i hi => ?_, by rw [h.n, h.nnz]⟩, h.isz.ge, h.vsz.ge⟩
  rw [h.n] at hi
  exact h.segs.mono (by omega) (by omega)

theorem MMBuilt.entry [AddCommMonoid R] {io : NumIO K R} {st : MMStruct} {is ie : ℕ} {es : List (Rec K)}
    {A : MMCsr R} (h : MMBuilt io st is ie es A) {i : ℕ} (hi : i < ie - is) (j : ℤ) :
    A.entry i j =
      (es.map fun e : Rec K => if e.1 = ((is + i : ℕ) : ℤ) + 1 ∧ e.2.1 = j + 1 then dirVal io st e.2.2.1 e.2.2.2 else 0).sum +
      if st.mirrors = true then mmMirror id (es.map (entOf io)) ((is + i : ℕ) : ℤ) j else 0 := by
  obtain ⟨iw, hsc⟩ := h.scat
  rw [← emAll_sum io st is ie es hi j]
  exact hsc.sum h.segs hi (fun x : ℤ × R => if x.1 = j then x.2 else 0)

/-- the matrix that has been read, for structures other than Hermitian -/
theorem MMBuilt.entry_eq [AddCommMonoid R] [Star R] {io : NumIO K R} {st : MMStruct} {is ie : ℕ}
    {es : List (Rec K)} {A : MMCsr R} (h : MMBuilt io st is ie es A) (hst : st ≠ .herm) {i : ℕ}
    (hi : i < ie - is) (j : ℤ) :
    A.entry i j = mmMatrix st (es.map (entOf io)) ((is + i : ℕ) : ℤ) j := by
  rw [h.entry hi j]
  have hd : (es.map fun e : Rec K => if e.1 = ((is + i : ℕ) : ℤ) + 1 ∧ e.2.1 = j + 1 then dirVal io st e.2.2.1 e.2.2.2 else 0).sum =
      mmGeneral (es.map (entOf io)) ((is + i : ℕ) : ℤ) j := by
    unfold mmGeneral
    rw [List.map_map]
    congr 2
    funext e
    rw [Function.comp_apply]
    by_cases hcond : e.1 = ((is + i : ℕ) : ℤ) + 1 ∧ e.2.1 = j + 1
    · rw [if_pos hcond, if_pos (show (entOf io e).r = _ ∧ (entOf io e).c = _ from hcond)]
      simp only [entOf]
      cases e.2.2.2 with
      | none => rfl
      | some im => simp only [dirVal, mirVal, if_neg hst]
    · rw [if_neg hcond, if_neg (show ¬((entOf io e).r = _ ∧ (entOf io e).c = _) from hcond)]
  rw [hd]
  cases st with
  | general => simp [MMStruct.mirrors, mmMatrix]
  | symm => simp [MMStruct.mirrors, mmMatrix, mmSymmetric]
  | herm => exact absurd rfl hst

theorem star_list_sum [AddCommMonoid R] [StarAddMonoid R] {α : Type} (l : List α) (f : α → R) :
    star (l.map f).sum = (l.map fun a => star (f a)).sum := by
  induction l with
  | nil => simp
  | cons a l ih => rw [List.map_cons, List.map_cons, List.sum_cons, List.sum_cons, star_add, ih]

/-- … and for Hermitian files: the conjugate of what the file says -/
theorem MMBuilt.entry_herm [AddCommMonoid R] [StarAddMonoid R] {io : NumIO K R} {is ie : ℕ}
    {es : List (Rec K)} {A : MMCsr R} (h : MMBuilt io .herm is ie es A)
    (hc : ∀ a b, io.cxc a b = star (io.cx a b)) (hr : ∀ a, star (io.re a) = io.re a) {i : ℕ}
    (hi : i < ie - is) (j : ℤ) :
    A.entry i j = star (mmMatrix .herm (es.map (entOf io)) ((is + i : ℕ) : ℤ) j) := by
  rw [h.entry hi j]
  simp only [MMStruct.mirrors, if_true, mmMatrix, mmHermitian, star_add]
  congr 1
  · unfold mmGeneral
    rw [star_list_sum, List.map_map]
    congr 2
    funext e
    rw [Function.comp_apply]
    by_cases hcond : e.1 = ((is + i : ℕ) : ℤ) + 1 ∧ e.2.1 = j + 1
    · rw [if_pos hcond, if_pos (show (entOf io e).r = _ ∧ (entOf io e).c = _ from hcond)]
      simp only [entOf]
      cases e.2.2.2 with
      | none => simp only [dirVal, mirVal, hr]
      | some im => simp only [dirVal, mirVal, if_true, hc]
    · rw [if_neg hcond, if_neg (show ¬((entOf io e).r = _ ∧ (entOf io e).c = _) from hcond), star_zero]
  · unfold mmMirror
    rw [star_list_sum]
    congr 2
    funext e
    split
    · simp
    · rw [star_zero]

/-- stored column indices come from the file -/
theorem MMBuilt.index {io : NumIO K R} {st : MMStruct} {is ie : ℕ} {es : List (Rec K)} {A : MMCsr R}
    (h : MMBuilt io st is ie es A) {P : ℤ → Prop} (hP : ∀ e ∈ es, P (e.1 - 1) ∧ P (e.2.1 - 1)) :
    ∀ k, k < A.nnz → P (A.index.get k) := by
  intro k hk
  obtain ⟨iw, hsc⟩ := h.scat
  rw [h.nnz] at hk
  obtain ⟨i, hi, h1, h2⟩ : ∃ i, i < ie - is ∧ A.ptr.get i ≤ k ∧ k < A.ptr.get (i + 1) := by
    have : ∀ m, m ≤ ie - is → k < A.ptr.get m → ∃ i, i < m ∧ A.ptr.get i ≤ k ∧ k < A.ptr.get (i + 1) := by
      intro m
      induction m with
      | zero => intro _ hk; rw [h.p0] at hk; omega
      | succ m ih =>
        intro hm hk
        by_cases hc : k < A.ptr.get m
        · obtain ⟨i, a, b⟩ := ih (by omega) hc; exact ⟨i, by omega, b⟩
        · exact ⟨m, by omega, by omega, hk⟩
    exact this _ le_rfl hk
  rw [h.segs.succ i hi] at h2
  have := hsc.put i hi (k - A.ptr.get i) (by omega)
  rw [show A.ptr.get i + (k - A.ptr.get i) = k by omega] at this
  have hmem : (i, (A.index.get k, A.value.get k)) ∈ emAll io st is ie es :=
    byKey_mem.1 (by rw [this]; exact List.getElem_mem _)
  simp only [emAll, List.mem_flatMap, List.mem_append, emMir, emDir] at hmem
  obtain ⟨e, he, hm⟩ := hmem
  have hPe := hP e he
  rcases hm with hm | hm
  · split at hm
    · simp only [List.mem_singleton, Prod.mk.injEq] at hm
      rw [hm.2.1]; exact hPe.1
    · simp at hm
  · split at hm
    · simp only [List.mem_singleton, Prod.mk.injEq] at hm
      rw [hm.2.1]; exact hPe.2
    · simp at hm

/-! ### C33: the coordinate reader -/

/-- **C33.** Reading the entry lines `data`, on the process that owns rows `is ≤ i < ie`, builds a
well-formed CSR structure whose matrix is the one the file describes (`general` or `symmetric`);
if the file's indices are in range, so are the stored column indices. -/
theorem mmCsrRows_spec [AddCommMonoid R] [Star R] (io : NumIO K R) (t : MMType) {st : MMStruct}
    (hst : st ≠ .herm) (is ie : ℕ) {data : List (Line K)} {E : List (MMEnt R)}
    (hE : List.Forall₂ (EntryLine io t) data E) (rest : List (Line K)) (jI : ℕ → ℕ) (jZ : ℕ → ℤ)
    (jR : ℕ → R) :
    Ok (mmCsrRows io t st is ie E.length (data ++ rest) jI jZ jR) fun r =>
      ∃ A, r = .ok (A, rest) ∧ A.n = ie - is ∧ A.WF ∧
        (∀ i, i < ie - is → ∀ j, A.entry i j = mmMatrix st E ((is + i : ℕ) : ℤ) j) ∧
        ∀ N : ℤ, (∀ e ∈ E, (1 ≤ e.r ∧ e.r ≤ N) ∧ 1 ≤ e.c ∧ e.c ≤ N) →
          ∀ k, k < A.nnz → 0 ≤ A.index.get k ∧ A.index.get k < N := by
  obtain ⟨es, h1, h2, _⟩ := EntryLine.scans hE
  have hp := parseN_append data rest es h1
  have hlen : es.length = E.length := by rw [h2, List.length_map]
  refine (Ok_mmCsrRows io t st is ie E.length (data ++ rest) jI jZ jR).mono ?_
  rw [show ((E.length : ℕ) : ℤ).toNat = es.length by omega, hp]
  rintro r ⟨A, rfl, hA⟩
  refine ⟨A, rfl, hA.n, hA.wf, fun i hi j => ?_, fun N hN => ?_⟩
  · rw [h2]; exact hA.entry_eq hst hi j
  · refine hA.index (P := fun z => 0 ≤ z ∧ z < N) fun e he => ?_
    have := hN (entOf io e) (by rw [h2]; exact List.mem_map_of_mem he)
    simp only [entOf] at this
    omega

/-- **C33 (finding).** For a `hermitian` file the reader builds the *conjugate* of the matrix the
file describes: the entry itself is conjugated and its mirror is not. -/
theorem mmCsrRows_herm [AddCommMonoid R] [StarAddMonoid R] (io : NumIO K R) (t : MMType) (is ie : ℕ)
    (hc : ∀ a b, io.cxc a b = star (io.cx a b)) (hr : ∀ a, star (io.re a) = io.re a)
    {data : List (Line K)} {E : List (MMEnt R)}
    (hE : List.Forall₂ (EntryLine io t) data E) (rest : List (Line K)) (jI : ℕ → ℕ) (jZ : ℕ → ℤ)
    (jR : ℕ → R) :
    Ok (mmCsrRows io t .herm is ie E.length (data ++ rest) jI jZ jR) fun r =>
      ∃ A, r = .ok (A, rest) ∧ A.n = ie - is ∧ A.WF ∧
        ∀ i, i < ie - is → ∀ j, A.entry i j = star (mmMatrix .herm E ((is + i : ℕ) : ℤ) j) := by
  obtain ⟨es, h1, h2, _⟩ := EntryLine.scans hE
  have hp := parseN_append data rest es h1
  have hlen : es.length = E.length := by rw [h2, List.length_map]
  refine (Ok_mmCsrRows io t .herm is ie E.length (data ++ rest) jI jZ jR).mono ?_
  rw [show ((E.length : ℕ) : ℤ).toNat = es.length by omega, hp]
  rintro r ⟨A, rfl, hA⟩
  refine ⟨A, rfl, hA.n, hA.wf, fun i hi j => ?_⟩
  rw [h2]; exact hA.entry_herm hc hr hi j

/-- **C33 (safety).** Whatever the lines of the file, and whatever number of entries its header
announces, the coordinate reader accesses no array out of bounds, and either reports
`LIS_ERR_FILE_IO` or produces a well-formed CSR structure. -/
theorem mmCsrRows_safe [Zero R] (io : NumIO K R) (t : MMType) (st : MMStruct) (is ie : ℕ) (nnz : ℤ)
    (data : List (Line K)) (jI : ℕ → ℕ) (jZ : ℕ → ℤ) (jR : ℕ → R) :
    Ok (mmCsrRows io t st is ie nnz data jI jZ jR) fun r =>
      r = .error .fileIo ∨ ∃ A rest, r = .ok (A, rest) ∧ A.n = ie - is ∧ A.WF := by
  refine (Ok_mmCsrRows io t st is ie nnz data jI jZ jR).mono fun r hr => ?_
  cases hp : parseN (scanMat t) nnz.toNat data with
  | none => rw [hp] at hr; exact .inl hr
  | some q =>
    rw [hp] at hr
    obtain ⟨A, h1, h2⟩ := hr
    exact .inr ⟨A, _, h1, h2.n, h2.wf⟩

/-- **C33.** A file with fewer lines than announced entries is rejected with `LIS_ERR_FILE_IO`. -/
theorem mmCsrRows_truncated [Zero R] (io : NumIO K R) (t : MMType) (st : MMStruct) (is ie : ℕ) {nnz : ℕ}
    {data : List (Line K)} (h : data.length < nnz) (jI : ℕ → ℕ) (jZ : ℕ → ℤ) (jR : ℕ → R) :
    mmCsrRows io t st is ie nnz data jI jZ jR = some (.error .fileIo) := by
  have hp : ∀ (k : ℕ) (data : List (Line K)), data.length < k → parseN (scanMat t) k data = none := by
    intro k
    induction k with
    | zero => intro data h; omega
    | succ k ih =>
      intro data h
      cases data with
      | nil => rfl
      | cons l data =>
        simp only [parseN]
        cases scanMat t l with
        | none => rfl
        | some a => simp only [Option.map_eq_none_iff]; exact ih data (by simpa using h)
  obtain ⟨r, h1, h2⟩ := Ok_mmCsrRows io t st is ie nnz data jI jZ jR
  rw [show ((nnz : ℕ) : ℤ).toNat = nnz by omega, hp nnz data h] at h2
  rw [h1, h2]

/-! ### C33: header -/

theorem mmSkip_comments (comments : List (Line K)) (sz : Line K) (rest : List (Line K))
    (hc : ∀ l ∈ comments, l.pct = true) (hs : sz.pct = false) :
    mmSkip (comments ++ sz :: rest) = some (sz, rest) := by
  induction comments with
  | nil => simp [mmSkip, hs]
  | cons l cs ih =>
    simp only [List.cons_append, mmSkip, hc l (by simp), if_true]
    exact ih fun l hl => hc l (by simp [hl])

theorem SizeLine.size {l : Line K} {N M : ℤ} {isb isx : Bool} (h : SizeLine l N M isb isx)
    (junk : ℕ → ℤ) (comments rest : List (Line K)) (hc : ∀ l ∈ comments, l.pct = true) :
    mmSize junk (comments ++ l :: rest) =
      .ok (⟨N, N, M, if isb then 1 else 0, if isx then 1 else 0, 0⟩, rest) := by
  obtain ⟨h1, a, b, c, ha, hb, hcc, h2⟩ := h
  unfold mmSize
  rw [mmSkip_comments comments l rest hc h1]
  rcases h2 with ⟨rfl, rfl, hw⟩ | ⟨d, e, hd, he, hw⟩
  · simp [hw, scanInts, ha, hb, hcc]
  · simp [hw, scanInts, ha, hb, hcc, hd, he]

theorem hasPrefix_self (s : String) : hasPrefix s s.toList = true := by
  unfold hasPrefix
  exact List.isPrefixOf_iff_prefix.2 List.prefix_rfl

/-- **C33.** The banner is recognised in any mixture of upper and lower case. -/
theorem mmBanner_spec (cplx : Bool) {l : Line K} {f : MMFmt} {t : MMType} {st : MMStruct}
    (h : BannerLine l f t st) (ht : cplx = true ∨ t = .real) (hs : cplx = true ∨ st ≠ .herm)
    (rest : List (Line K)) : mmBanner cplx (l :: rest) = some (.ok (f, t, st)) := by
  obtain ⟨m, fw, tw, sw, hw, hm, hf, ht', hs'⟩ := h
  have hlen : ∀ {w : List Char} {s : String}, w.map Char.toLower = s.toList → s.toList.length < 64 → w.length < 64 := by
    intro w s h hl
    have := congrArg List.length h
    rw [List.length_map] at this
    omega
  have hb : ∀ k w, (["%%MatrixMarket".toList, m, fw, tw, sw] : List (List Char))[k]? = some w → w.length < 64 →
      bannerWord l k = some w := by
    intro k w h1 h2
    rw [← hw, List.getElem?_map] at h1
    unfold bannerWord
    cases h3 : l.words[k]? with
    | none => simp [h3] at h1
    | some x =>
      simp only [h3, Option.map_some, Option.some.injEq] at h1
      subst h1
      simp only [if_pos h2]
  unfold mmBanner
  simp only
  rw [hb 0 _ rfl (by decide), Option.bind_some, hb 1 _ rfl (hlen hm (by decide)), Option.bind_some,
    hb 2 _ rfl (hlen hf (by cases f <;> decide)), Option.bind_some,
    hb 3 _ rfl (hlen ht' (by cases t <;> decide)), Option.bind_some,
    hb 4 _ rfl (hlen hs' (by cases st <;> decide)), Option.bind_some]
  simp only [lowerWord, hm, hf, ht', hs']
  rw [if_neg (by rw [hasPrefix_self, hasPrefix_self]; decide)]
  cases f <;> cases t <;> cases st <;> cases cplx <;> simp_all <;> decide

/-- **C33.** The whole coordinate file after its banner, serial build. -/
theorem mmCsr_spec [AddCommMonoid R] [Star R] (io : NumIO K R) (t : MMType) {st : MMStruct}
    (hst : st ≠ .herm) (J : MMJunk K R) {file rest : List (Line K)} {N : ℤ} {isb isx : Bool}
    {E : List (MMEnt R)} (hN : 0 < N) (h : CoordFile io t file N isb isx E rest) :
    Ok (mmCsr io t st false J file) fun r =>
      ∃ A, r = .ok (A, none, none) ∧ A.n = N.toNat ∧ A.WF ∧
        (∀ i, i < N.toNat → ∀ j, A.entry i j = mmMatrix st E i j) ∧
        ((∀ e ∈ E, (1 ≤ e.r ∧ e.r ≤ N) ∧ 1 ≤ e.c ∧ e.c ≤ N) →
          ∀ k, k < A.nnz → 0 ≤ A.index.get k ∧ A.index.get k < N) := by
  obtain ⟨comments, sz, data, rfl, hc, hsz, hE⟩ := h
  unfold mmCsr
  rw [hsz.size J.size comments _ hc]
  simp only
  rw [if_neg (by omega)]
  simp only [ne_eq, not_true_eq_false, if_false, Ok_obind]
  refine (mmCsrRows_spec io t hst 0 N.toNat hE rest J.nat J.int J.val).mono ?_
  rintro r ⟨A, rfl, h1, h2, h3, h4⟩
  simp only [Bool.false_eq_true, if_false, Ok_some]
  exact ⟨A, rfl, by omega, h2, fun i hi j => by rw [h3 i (by omega) j, Nat.zero_add], h4 N⟩

/-- **C33.** `lis_input_matrix` on a coordinate file: banner, comments, size, entries. -/
theorem mmInput_spec [AddCommMonoid R] [Star R] (io : NumIO K R) (cplx : Bool) {t : MMType} {st : MMStruct}
    (hst : st ≠ .herm) (ht : cplx = true ∨ t = .real) (J : MMJunk K R) {bl : Line K}
    {file rest : List (Line K)} {N : ℤ} {isb isx : Bool} {E : List (MMEnt R)}
    (hb : BannerLine bl .coo t st) (hN : 0 < N) (h : CoordFile io t file N isb isx E rest) :
    Ok (mmInput io cplx false J (bl :: file)) fun r =>
      ∃ A, r = .ok (.csr A none none) ∧ A.n = N.toNat ∧ A.WF ∧
        (∀ i, i < N.toNat → ∀ j, A.entry i j = mmMatrix st E i j) ∧
        ((∀ e ∈ E, (1 ≤ e.r ∧ e.r ≤ N) ∧ 1 ≤ e.c ∧ e.c ≤ N) →
          ∀ k, k < A.nnz → 0 ≤ A.index.get k ∧ A.index.get k < N) := by
  unfold mmInput
  rw [mmBanner_spec cplx hb ht (.inr hst) file, Option.bind_some]
  simp only [List.tail_cons, Ok_obind]
  refine (mmCsr_spec io t hst J hN h).mono ?_
  rintro r ⟨A, rfl, h1⟩
  simp only [Ok_some]
  exact ⟨A, rfl, h1⟩

/-- **C33.** A file whose matrix is not square is rejected. -/
theorem mmInput_notSquare [Zero R] (io : NumIO K R) (cplx vecs : Bool) {t : MMType} {st : MMStruct}
    (ht : cplx = true ∨ t = .real) (hs : cplx = true ∨ st ≠ .herm) (J : MMJunk K R) {f : MMFmt}
    {bl l : Line K} {comments rest : List (Line K)} (hb : BannerLine bl f t st)
    (hc : ∀ l ∈ comments, l.pct = true) {a b : Word K} {ws : List (Word K)} {nr nc : ℤ} (hl : l.pct = false)
    (hw : l.words = a :: b :: ws) (ha : a.int? = some nr) (hb' : b.int? = some nc) (hne : nr ≠ nc) :
    mmInput io cplx vecs J (bl :: (comments ++ l :: rest)) = some (.error .fileIo) := by
  have hsz : mmSize J.size (comments ++ l :: rest) = .error .fileIo := by
    unfold mmSize
    rw [mmSkip_comments comments l rest hc hl]
    simp only [hw, scanInts, ha, hb', List.getD_cons_zero, List.getD_cons_succ, List.length_cons]
    rw [if_pos]
    split_ifs <;> exact hne
  unfold mmInput
  rw [mmBanner_spec cplx hb ht hs _, Option.bind_some]
  cases f
  · simp only [List.tail_cons, mmCsr, hsz, Option.bind_some]
  · simp only [List.tail_cons, mmDns, hsz, Option.bind_some]

end Lis
