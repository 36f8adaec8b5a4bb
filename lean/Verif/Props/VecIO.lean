import Verif.Spec.VecIO
import Verif.Props.MMRoundTrip

/-
C62: vector files.
-/
namespace Lis
variable {K R : Type}

/-! ### Matrix Market files -/

theorem VecBanner.words {l : Line K} {t : MMType} (h : VecBanner l t) :
    ∃ w ws, l.words = w :: ws ∧ w.txt = "%%MatrixMarket".toList := by
  obtain ⟨m, fw, tw, sw, hw, -⟩ := h
  cases hl : l.words with
  | nil => simp [hl] at hw
  | cons w ws =>
    simp only [hl, List.map_cons, List.cons.injEq] at hw
    exact ⟨w, ws, rfl, hw.1⟩

theorem VecBanner.format {l : Line K} {t : MMType} (h : VecBanner l t) (rest : List (Line K)) :
    vecFormat (l :: rest) = some (.ok .mm) := by
  obtain ⟨w, ws, h1, h2⟩ := h.words
  unfold vecFormat
  simp only [h1, h2]
  decide

theorem VecBanner.banner (cplx : Bool) {l : Line K} {t : MMType} (h : VecBanner l t)
    (ht : cplx = true ∨ t = .real) (rest : List (Line K)) : vmBanner cplx (l :: rest) = some (.ok t) := by
  obtain ⟨m, fw, tw, sw, hw, hm, hf, ht', hs'⟩ := h
  have hlen : ∀ {w : List Char} {s : String}, w.map Char.toLower = s.toList → s.toList.length < 64 → w.length < 64 := by
    intro w s h hl
    have := congrArg List.length h
    rw [List.length_map] at this
    omega
  have hb : ∀ k w, (["%%MatrixMarket".toList, m, fw, tw, sw] : List (List Char))[k]? = some w → w.length < 64 →
      bannerWord l k = some w := by
    intro k w h1 h2
    rw [← hw, List.getElem?_map] at h1
    unfold bannerWord
    cases h3 : l.words[k]? with
    | none => simp [h3] at h1
    | some x =>
      simp only [h3, Option.map_some, Option.some.injEq] at h1
      subst h1
      simp only [if_pos h2]
  have hfl : fw.length < 64 := by
    rcases hf with hf | hf
    · exact hlen hf (by decide)
    · exact hlen hf (by decide)
  unfold vmBanner
  simp only
  rw [hb 0 _ rfl (by decide), Option.bind_some, hb 1 _ rfl (hlen hm (by decide)), Option.bind_some,
    hb 2 _ rfl hfl, Option.bind_some,
    hb 3 _ rfl (hlen ht' (by cases t <;> decide)), Option.bind_some,
    hb 4 _ rfl (hlen hs' (by decide)), Option.bind_some]
  simp only [lowerWord, hm, ht', hs']
  rw [if_neg (by rw [hasPrefix_self, hasPrefix_self]; decide)]
  rw [if_neg (by rcases hf with hf | hf <;> rw [hf] <;> decide)]
  have h1 : (if hasPrefix "real" t.word.toList then some MMType.real
      else if (cplx && hasPrefix "complex" t.word.toList) = true then some MMType.complex else none) = some t := by
    cases t with
    | real => exact if_pos (by decide)
    | complex =>
      rcases ht with rfl | ht
      · exact (if_neg (by decide)).trans (if_pos (by decide))
      · cases ht
  rw [h1]
  simp only
  exact if_neg (by decide)

theorem VecLine.scan {io : NumIO K R} {t : MMType} {l : Line K} {i : ℤ} {v : R} (h : VecLine io t l i v) :
    ∃ e, scanVec t l = some e ∧ e.1 = i ∧ mirVal io e.2.1 e.2.2 = v := by
  obtain ⟨a, x, ws, re, hw, ha, hx, hm⟩ := h
  cases t with
  | real =>
    simp only at hm
    exact ⟨(i, re, none), by simp [scanVec, hw, ha, hx], rfl, by simp [mirVal, hm]⟩
  | complex =>
    simp only at hm
    obtain ⟨y, ws', im, rfl, hy, rfl⟩ := hm
    exact ⟨(i, re, some im), by simp [scanVec, hw, ha, hx, hy], rfl, rfl⟩

theorem VecLine.scans {io : NumIO K R} {t : MMType} {data : List (Line K)} {E : List (ℤ × R)}
    (h : List.Forall₂ (fun l (e : ℤ × R) => VecLine io t l e.1 e.2) data E) :
    ∃ es, List.Forall₂ (fun l a => scanVec t l = some a) data es ∧
      E = es.map fun a => (a.1, mirVal io a.2.1 a.2.2) := by
  induction h with
  | nil => exact ⟨[], .nil, rfl⟩
  | cons h _ ih =>
    obtain ⟨es, h1, h2⟩ := ih
    obtain ⟨e, h3, h4, h5⟩ := h.scan
    exact ⟨e :: es, .cons h3 h1, by rw [h2, List.map_cons, h4, h5]⟩

theorem listedAt_append [Zero R] (E : List (ℤ × R)) (e : ℤ × R) (i : ℕ) :
    listedAt (E ++ [e]) i = if e.1 = (i : ℤ) + 1 then e.2 else listedAt E i := by
  unfold listedAt
  rw [List.filter_append]
  by_cases h : e.1 = (i : ℤ) + 1
  · rw [if_pos h, List.filter_cons_of_pos (by simpa using h)]
    simp
  · rw [if_neg h, List.filter_cons_of_neg (by simpa using h)]
    simp

/-- **C62.** A Matrix Market vector file (`coordinate` or `array` in the banner, comments before the
size line, positions in any order, positions out of range) is read as what it lists, on the process
that owns elements `is ≤ i < ie`; the rest of the file is not read. -/
theorem inputVector_mm [Zero R] (io : NumIO K R) (cplx : Bool) (range : ℕ → ℕ × ℕ) (d : K) {t : MMType}
    (ht : cplx = true ∨ t = .real) {file : List (Line K)} {E : List (ℤ × R)} (h : VecFile io t file E) :
    Ok (inputVector io cplx range d file) fun r => ∃ v, r = .ok (some v) ∧
      v.size = (range E.length).2 - (range E.length).1 ∧
      ∀ i, (range E.length).1 ≤ i → i < (range E.length).2 →
        v.get (i - (range E.length).1) = listedAt E i := by
  obtain ⟨b, comments, sz, data, rest, rfl, hb, hc, hs, ⟨w, ws, hw, hwi⟩, hd⟩ := h
  obtain ⟨es, hes, hE⟩ := VecLine.scans hd
  have hlen : es.length = E.length := by rw [hE, List.length_map]
  unfold inputVector
  rw [hb.format, Option.bind_some]
  simp only
  unfold inputVectorMm
  rw [hb.banner cplx ht, Option.bind_some]
  simp only [List.tail_cons]
  rw [mmSkip_comments comments sz _ hc hs]
  simp only [hw, scanInts, hwi]
  rw [if_neg (by omega)]
  simp only [Int.toNat_natCast]
  obtain ⟨is, his⟩ : ∃ x, x = (range E.length).1 := ⟨_, rfl⟩
  obtain ⟨ie, hie⟩ : ∃ x, x = (range E.length).2 := ⟨_, rfl⟩
  rw [← his, ← hie]
  have hp := parseN_append data rest es hes
  rw [hlen] at hp
  obtain ⟨r, hr, v, rfl, h1, h2⟩ := Ok_readLoop_some (f := vmStore io is ie)
    (fun pre (s : Arr R) => s.size = ie - is ∧ ∀ i, is ≤ i → i < ie →
      s.get (i - is) = listedAt (pre.map fun a => (a.1, mirVal io a.2.1 a.2.2)) i) _ _ [] es
      ⟨ie - is, fun _ => 0⟩ hp rfl ⟨rfl, fun i _ _ => rfl⟩ (by
    rintro pre a s - ⟨h1, h2⟩
    unfold vmStore
    simp only
    split
    · next hh =>
      simp only [Ok_wrI, Arr.set_size]
      refine ⟨by omega, by omega, h1, fun i hi1 hi2 => ?_⟩
      rw [List.map_append, List.map_cons, List.map_nil, listedAt_append, Arr.set_get]
      split
      · next h3 => rw [if_pos (by simp only; omega)]
      · next h3 => rw [if_neg (by simp only; omega)]; exact h2 i hi1 hi2
    · next hh =>
      simp only [Ok_some]
      refine ⟨h1, fun i hi1 hi2 => ?_⟩
      rw [List.map_append, List.map_cons, List.map_nil, listedAt_append, if_neg (by simp only; omega)]
      exact h2 i hi1 hi2)
  rw [hr]
  simp only [Option.map_some, Except.map, Ok_some]
  exact ⟨v, rfl, h1, by rw [hE]; exact h2⟩

end Lis
