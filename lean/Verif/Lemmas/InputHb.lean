import Mathlib.Tactic.IntervalCases
import Mathlib.Data.Nat.Digits.Lemmas
import Verif.Model.InputHb
import Verif.Spec.InputHb

/-! Lemmas on the Harwell-Boeing reader: text, formats, fields. -/

namespace Lis
variable {R : Type}

/-! ### digits -/

theorem digitChar_facts {d : ℕ} (h : d < 10) : (Nat.digitChar d).isDigit = true ∧ (Nat.digitChar d).toNat - 48 = d ∧
    (Nat.digitChar d).toLower = Nat.digitChar d := by
  interval_cases d <;> exact ⟨by decide, by decide, by decide⟩

theorem digitsVal_map (ds : List ℕ) (h : ∀ d ∈ ds, d < 10) :
    digitsVal (ds.map Nat.digitChar) = Nat.ofDigits 10 ds.reverse := by
  induction ds using List.reverseRecOn with
  | nil => rfl
  | append_singleton ds d ih =>
    have ih := ih fun x hx => h x (List.mem_append_left _ hx)
    unfold digitsVal at ih ⊢
    rw [List.map_append, List.foldl_append, ih]
    simp only [List.map_cons, List.map_nil, List.foldl_cons, List.foldl_nil, List.reverse_append, List.reverse_cons,
      List.reverse_nil, List.nil_append, List.singleton_append, Nat.ofDigits_cons]
    rw [(digitChar_facts (h d (by simp))).2.1]
    omega

theorem Digits.isDigit {f : List Char} {m : ℕ} (h : Digits f m) : ∀ c ∈ f, c.isDigit = true := by
  obtain ⟨ds, h1, _, rfl, _⟩ := h
  rintro c hc
  obtain ⟨d, hd, rfl⟩ := List.mem_map.1 hc
  exact (digitChar_facts (h1 d hd)).1

theorem Digits.val {f : List Char} {m : ℕ} (h : Digits f m) : digitsVal f = m := by
  obtain ⟨ds, h1, _, rfl, rfl⟩ := h
  exact digitsVal_map ds h1

theorem Digits.ne {f : List Char} {m : ℕ} (h : Digits f m) : f ≠ [] := by
  obtain ⟨ds, _, h2, rfl, _⟩ := h
  simpa using h2

theorem Digits.lower {f : List Char} {m : ℕ} (h : Digits f m) : f.map Char.toLower = f := by
  obtain ⟨ds, h1, _, rfl, _⟩ := h
  rw [List.map_map]
  exact List.map_congr_left fun d hd => (digitChar_facts (h1 d hd)).2.2

theorem isDigit_ne {c x : Char} (h : c.isDigit = true) (hx : x.isDigit = false := by decide) : c ≠ x := by
  rintro rfl
  rw [hx] at h
  cases h

theorem isDigit_space {c : Char} (h : c.isDigit = true) : cSpace c = false := by
  unfold cSpace
  simp [isDigit_ne h (x := ' '), isDigit_ne h (x := '\t'), isDigit_ne h (x := '\n'), isDigit_ne h (x := '\x0b'),
    isDigit_ne h (x := '\x0c'), isDigit_ne h (x := '\r')]

theorem dropWhile_blank (b : ℕ) (g : List Char) :
    (List.replicate b ' ' ++ g).dropWhile cSpace = g.dropWhile cSpace := by
  induction b with
  | zero => rfl
  | succ b ih =>
    rw [List.replicate_succ, List.cons_append, List.dropWhile_cons_of_pos (by decide), ih]

theorem takeWhile_append_stop {p : Char → Bool} {f s : List Char} (h : ∀ c ∈ f, p c = true)
    (hs : ∀ c, s.head? = some c → p c = false) : (f ++ s).takeWhile p = f := by
  induction f with
  | nil =>
    cases s with
    | nil => rfl
    | cons c s => rw [List.nil_append, List.takeWhile_cons_of_neg (by simp [hs c rfl])]
  | cons x f ih =>
    rw [List.cons_append, List.takeWhile_cons_of_pos (h x (by simp)), ih fun c hc => h c (by simp [hc])]

theorem cAtoi_digits {b : ℕ} {g s : List Char} {m : ℕ} (h : Digits g m)
    (hs : ∀ c, s.head? = some c → c.isDigit = false) : cAtoi (List.replicate b ' ' ++ (g ++ s)) = m := by
  have hd : (g ++ s).dropWhile cSpace = g ++ s := by
    obtain ⟨x, g', rfl⟩ := List.exists_cons_of_ne_nil h.ne
    rw [List.cons_append, List.dropWhile_cons_of_neg (by simp [isDigit_space (h.isDigit x (by simp))])]
  have ht := takeWhile_append_stop (p := Char.isDigit) h.isDigit hs
  unfold cAtoi
  rw [dropWhile_blank, hd]
  obtain ⟨x, g', hg⟩ := List.exists_cons_of_ne_nil h.ne
  have hx : x.isDigit = true := h.isDigit x (by simp [hg])
  split
  · rename_i r hr
    rw [hg, List.cons_append] at hr
    injection hr with h1 _
    exact absurd h1 (isDigit_ne hx)
  · rename_i r hr
    rw [hg, List.cons_append] at hr
    injection hr with h1 _
    exact absurd h1 (isDigit_ne hx)
  · rw [ht, h.val]

theorem cAtoi_pure {g : List Char} {m : ℕ} (h : Digits g m) : cAtoi g = m := by
  have := cAtoi_digits (b := 0) (s := []) h (by simp)
  simpa using this

theorem NumField.atoi {f : List Char} {m : ℕ} (h : NumField f m) : cAtoi f = m := by
  obtain ⟨b, g, rfl, hg⟩ := h
  have := cAtoi_digits (b := b) (s := []) hg (by simp)
  simpa using this

/-! ### numbers on a line -/

theorem scanD_digits {w b : ℕ} {f s : List Char} {m : ℕ} (h : Digits f m) (hw : f.length < w)
    (hs : ∀ c, s.head? = some c → c = ' ' ∨ c = '\n') :
    scanD w (List.replicate b ' ' ++ (f ++ s)) = some ((m : ℤ), s) := by
  have hd : (f ++ s).dropWhile cSpace = f ++ s := by
    obtain ⟨x, g', rfl⟩ := List.exists_cons_of_ne_nil h.ne
    rw [List.cons_append, List.dropWhile_cons_of_neg (by simp [isDigit_space (h.isDigit x (by simp))])]
  have ht : ((f ++ s).take w).takeWhile Char.isDigit = f := by
    rw [List.take_append, List.take_of_length_le hw.le]
    refine takeWhile_append_stop h.isDigit fun c hc => ?_
    have : s.head? = some c := by
      cases s with
      | nil => simp at hc
      | cons y s =>
        rw [show w - f.length = (w - f.length - 1) + 1 by omega, List.take_succ_cons] at hc
        exact hc
    rcases hs c this with rfl | rfl <;> decide
  unfold scanD
  rw [dropWhile_blank, hd]
  obtain ⟨x, g', hg⟩ := List.exists_cons_of_ne_nil h.ne
  have hx : x.isDigit = true := h.isDigit x (by simp [hg])
  split
  · rename_i r hr
    rw [hg, List.cons_append] at hr
    injection hr with h1 _
    exact absurd h1 (isDigit_ne hx)
  · rename_i r hr
    rw [hg, List.cons_append] at hr
    injection hr with h1 _
    exact absurd h1 (isDigit_ne hx)
  · unfold scanU
    simp only
    rw [ht, if_neg h.ne, h.val, List.drop_left]
    rfl

theorem Numbers.scan {w : ℕ} (hw : 14 ≤ w) (k : ℕ) : ∀ (vs : List ℕ) (s rest : List Char), Numbers vs s rest →
    scanDs w (vs.length + k) s = vs.map (fun v : ℕ => (v : ℤ)) ++ scanDs w k rest := by
  intro vs
  induction vs with
  | nil =>
    intro s rest h
    have h : s = rest := h
    subst h
    simp
  | cons v vs ih =>
    rintro s rest ⟨b, f, s', rfl, h1, h2, h3, h4⟩
    rw [List.length_cons, show vs.length + 1 + k = (vs.length + k) + 1 by omega, scanDs,
      scanD_digits h1 (by omega) h3]
    simp only
    rw [ih s' rest h4]
    rfl

theorem scanD_blank {w : ℕ} {s : List Char} (h : BlankText s) : scanD w s = none := by
  have : s.dropWhile cSpace = [] := by
    induction s with
    | nil => rfl
    | cons c s ih =>
      rw [List.dropWhile_cons_of_pos (by rcases h c (by simp) with rfl | rfl <;> decide)]
      exact ih fun d hd => h d (by simp [hd])
  unfold scanD
  rw [this]
  simp [scanU]

/-! ### the buffer -/

theorem cStr_bufPut (b : ℕ → Char) {l : List Char} (hl : l.length < 1024) (h0 : '\x00' ∉ l) (w : ℕ) :
    ∀ p, p ≤ l.length → cStr (bufPut b l) p w = some ((l.drop p).take w) := by
  induction w with
  | zero => intro p _; simp [cStr]
  | succ w ih =>
    intro p hp
    rw [cStr, if_pos (by unfold hbBufSize; omega)]
    by_cases hpl : p < l.length
    · have hb : bufPut b l p = l[p] := by
        unfold bufPut
        rw [List.getElem?_eq_getElem hpl]
      have hne : l[p] ≠ '\x00' := fun h => h0 (h ▸ List.getElem_mem hpl)
      rw [hb, if_neg hne, ih (p + 1) hpl, List.drop_eq_getElem_cons hpl]
      rfl
    · have hpe : p = l.length := by omega
      have hb : bufPut b l p = '\x00' := by
        unfold bufPut
        rw [List.getElem?_eq_none (by omega)]
        simp [hpe]
      rw [hb, if_pos rfl, hpe, List.drop_length]
      simp

/-! ### formats -/

theorem cutAt_append {c : Char} {a s : List Char} (h : c ∉ a) : cutAt c (a ++ c :: s) = some (a, s) := by
  induction a with
  | nil => rw [List.nil_append, cutAt, if_pos rfl]
  | cons x a ih =>
    have hx : x ≠ c := fun e => h (by simp [e])
    rw [List.cons_append, cutAt, if_neg hx, ih (fun hc => h (by simp [hc]))]
    rfl

theorem cutAt_none {c : Char} {a : List Char} (h : c ∉ a) : cutAt c a = none := by
  induction a with
  | nil => rfl
  | cons x a ih =>
    have hx : x ≠ c := fun e => h (by simp [e])
    rw [cutAt, if_neg hx, ih (fun hc => h (by simp [hc]))]
    rfl

theorem Digits.notMem {f : List Char} {m : ℕ} (h : Digits f m) {x : Char} (hx : x.isDigit = false := by decide) :
    x ∉ f := fun hm => isDigit_ne (h.isDigit x hm) hx rfl

theorem map_blank (b : ℕ) : (List.replicate b ' ').map Char.toLower = List.replicate b ' ' := by
  rw [List.map_replicate]
  congr 1

theorem not_blank {c : Char} (h : c ≠ ' ') (b : ℕ) : c ∉ List.replicate b ' ' := fun hm =>
  h (List.eq_of_mem_replicate hm)

theorem IntFmt.get {f : List Char} {cnt w : ℕ} (h : IntFmt f cnt w) (junk : ℤ × ℤ) :
    getFmtStr junk f = some ((cnt : ℤ), (w : ℤ)) := by
  obtain ⟨b, a, x, c, t, rfl, hx, ha, hc⟩ := h
  have hxl : x.toLower = 'i' := by rcases hx with rfl | rfl <;> decide
  unfold getFmtStr
  rw [List.map_append, map_blank, List.map_cons, List.map_append, List.map_cons, List.map_append, List.map_cons,
    ha.lower, hc.lower, hxl, show Char.toLower '(' = '(' by decide, show Char.toLower ')' = ')' by decide,
    cutAt_append (not_blank (by decide) b)]
  simp only
  rw [show a ++ 'i' :: (c ++ ')' :: t.map Char.toLower) = (a ++ 'i' :: c) ++ ')' :: t.map Char.toLower by simp,
    cutAt_append (by simp [ha.notMem (x := ')'), hc.notMem (x := ')')])]
  simp only
  rw [cutAt_append ha.notMem]
  simp only
  rw [cAtoi_pure ha, cAtoi_pure hc]

theorem toLower_isDigit {y : Char} (h : y.isDigit = true) : y.toLower = y := by
  unfold Char.toLower
  have h' : y.val ≥ 48 ∧ y.val ≤ 57 := by simpa [Char.isDigit] using h
  split
  · rename_i hh
    exfalso
    have h1 : (65 : UInt32) ≤ y.val := hh.1
    have h2 : y.val ≤ 57 := h'.2
    have : (65 : UInt32) ≤ 57 := UInt32.le_trans h1 h2
    exact absurd this (by decide)
  · rfl

theorem RealFmt.get {f : List Char} {cnt w : ℕ} (h : RealFmt f cnt w) (junk : ℤ × ℤ) :
    getFmtStr junk f = some ((cnt : ℤ), (w : ℤ)) := by
  obtain ⟨b, a, x, c, u, t, rfl, ha, hc, hx⟩ := h
  have hu : ∀ y ∈ u.map Char.toLower, y.isDigit = true ∨ y = 'e' := by
    rintro y hy
    obtain ⟨z, hz, rfl⟩ := List.mem_map.1 hy
    rcases hx with ⟨_, hu⟩ | ⟨_, hu⟩
    · rcases hu z hz with h | rfl | rfl
      · left; rw [toLower_isDigit h]; exact h
      · right; decide
      · right; decide
    · left; rw [toLower_isDigit (hu z hz)]; exact hu z hz
  have hun : ∀ z : Char, z.isDigit = false → z ≠ 'e' → z ∉ u.map Char.toLower := by
    intro z h1 h2 hz
    rcases hu z hz with h | h
    · rw [h1] at h; cases h
    · exact h2 h
  have hxl : (x.toLower = 'e') ∨ (x.toLower = 'd' ∧ 'e' ∉ u.map Char.toLower) := by
    rcases hx with ⟨h, _⟩ | ⟨h, hd⟩
    · left; rcases h with rfl | rfl <;> decide
    · right
      refine ⟨by rcases h with rfl | rfl <;> decide, fun he => ?_⟩
      obtain ⟨z, hz, hz'⟩ := List.mem_map.1 he
      rw [toLower_isDigit (hd z hz)] at hz'
      have := hd z hz
      rw [hz'] at this
      exact absurd this (by decide)
  unfold getFmtStr
  rw [List.map_append, map_blank, List.map_cons, List.map_append, List.map_cons, List.map_append, List.map_cons,
    List.map_append, List.map_cons, ha.lower, hc.lower, show Char.toLower '(' = '(' by decide,
    show Char.toLower ')' = ')' by decide, show Char.toLower '.' = '.' by decide,
    cutAt_append (not_blank (by decide) b)]
  obtain ⟨y, hy⟩ : ∃ y, y = x.toLower := ⟨_, rfl⟩
  obtain ⟨v, hv⟩ : ∃ v, v = u.map Char.toLower := ⟨_, rfl⟩
  rw [← hy, ← hv]
  rw [← hv] at hun
  rw [← hy, ← hv] at hxl
  have hye : y = 'e' ∨ y = 'd' := hxl.imp id And.left
  simp only
  rw [show a ++ y :: (c ++ '.' :: (v ++ ')' :: t.map Char.toLower)) =
      (a ++ y :: (c ++ '.' :: v)) ++ ')' :: t.map Char.toLower by simp,
    cutAt_append (by
      have hyn : ')' ≠ y := by rcases hye with rfl | rfl <;> decide
      simp [ha.notMem (x := ')'), hc.notMem (x := ')'), hyn, hun ')' (by decide) (by decide)])]
  simp only
  rw [cutAt_none (c := 'i') (by
      have hyn : 'i' ≠ y := by rcases hye with rfl | rfl <;> decide
      simp [ha.notMem (x := 'i'), hc.notMem (x := 'i'), hyn, hun 'i' (by decide) (by decide)])]
  simp only
  have hcut : (cutAt 'e' (a ++ y :: (c ++ '.' :: v))).or (cutAt 'd' (a ++ y :: (c ++ '.' :: v))) =
      some (a, c ++ '.' :: v) := by
    rcases hxl with rfl | ⟨rfl, hve⟩
    · rw [cutAt_append ha.notMem]; rfl
    · rw [cutAt_none (by simp [ha.notMem (x := 'e'), hc.notMem (x := 'e'), hve]), cutAt_append ha.notMem]; rfl
  rw [hcut]
  simp only
  rw [show a ++ y :: (c ++ '.' :: v) = (a ++ y :: c) ++ '.' :: v by simp, cutAt_append (by
      have hyn : '.' ≠ y := by rcases hye with rfl | rfl <;> decide
      simp [ha.notMem (x := '.'), hc.notMem (x := '.'), hyn])]
  simp only
  rw [if_neg (by simp)]
  have hlen : (a ++ y :: c).length - a.length - 1 = c.length := by simp
  rw [hlen, List.take_left, cAtoi_pure ha, cAtoi_pure hc]

theorem getFmtStr_noParen {f : List Char} (h : '(' ∉ f) (junk : ℤ × ℤ) : getFmtStr junk f = some (0, 0) := by
  unfold getFmtStr
  rw [cutAt_none]
  intro hm
  obtain ⟨z, hz, hz'⟩ := List.mem_map.1 hm
  have : z = '(' := by
    unfold Char.toLower at hz'
    split at hz'
    · rename_i hh
      exfalso
      have hv := congrArg Char.toNat hz'
      have h1 : 65 ≤ z.toNat := hh.1
      have h2 : z.toNat ≤ 90 := hh.2
      have h3 : ((z.val + ('a'.val - 'A'.val)).toNat) = 40 := by simpa using hv
      rw [UInt32.toNat_add] at h3
      have h4 : (('a'.val - 'A'.val : UInt32)).toNat = 32 := by decide
      rw [h4] at h3
      have : z.toNat = z.val.toNat := rfl
      omega
    · exact hz'
  exact h (this ▸ hz)

/-! ### fields -/

/-- `a'` is `a` with `g` of the fields `fs` stored from position `k` on -/
def FieldsIn {β : Type} (g : List Char → β) (fs : List (List Char)) (k : ℕ) (a a' : Arr β) : Prop :=
  a'.size = a.size ∧ (∀ i, i < fs.length → a'.get (k + i) = g (fs.getD i [])) ∧ ∀ i, i < k → a'.get i = a.get i

theorem Ok_hbRow {β : Type} (g : List Char → β) (b : ℕ → Char) {l : List Char} (hl : l.length < 1024)
    (h0 : '\x00' ∉ l) {w lim : ℕ} (hw : w < 128) (tail : List Char) : ∀ (j : ℕ) (gs : List (List Char)) (p k : ℕ) (a : Arr β),
    p ≤ l.length → l.drop p = gs.flatten ++ tail → (∀ f ∈ gs, f.length = w) → gs.length = min j (lim - k) →
    a.size = lim → k ≤ lim →
    Ok (hbRow (bufPut b l) (w : ℤ) lim (fun k f (a : Arr β) => a.wr k (g f)) j p k a) fun r =>
      r.1 = k + gs.length ∧ FieldsIn g gs k a r.2 := by
  intro j
  induction j with
  | zero =>
    intro gs p k a _ _ _ hlen _ _
    have : gs = [] := List.length_eq_zero_iff.1 (by omega)
    subst this
    exact ⟨_, rfl, rfl, rfl, by simp, fun _ _ => rfl⟩
  | succ j ih =>
    intro gs p k a hp hd hg hlen ha hk
    rw [hbRow]
    by_cases hkl : k < lim
    · rw [if_pos hkl, if_pos (by omega), Int.toNat_natCast, cStr_bufPut b hl h0 w p hp]
      obtain ⟨f, gs', rfl⟩ : ∃ f gs', gs = f :: gs' := by
        cases gs with
        | nil => simp at hlen; omega
        | cons f gs' => exact ⟨f, gs', rfl⟩
      have hf : f.length = w := hg f (by simp)
      rw [hd, List.flatten_cons, List.append_assoc, ← hf, List.take_left]
      simp only [Option.bind_some]
      rw [Arr.wr, if_pos (by omega)]
      simp only [Option.bind_some]
      have hpl : p + f.length ≤ l.length := by
        have := congrArg List.length hd
        simp only [List.length_drop, List.flatten_cons, List.length_append] at this
        omega
      rw [List.length_cons] at hlen
      have := ih gs' (p + f.length) (k + 1) (a.set k (g f)) hpl
        (by rw [← List.drop_drop, hd, List.flatten_cons, List.append_assoc, List.drop_left])
        (fun f' hf' => hg f' (by simp [hf'])) (by omega) ha (by omega)
      rw [← hf] at this
      refine this.mono ?_
      rintro ⟨k', a'⟩ ⟨h1, h2, h3, h4⟩
      simp only at h1 h2 h3 h4 ⊢
      refine ⟨by rw [h1, List.length_cons]; omega, h2, fun i hi => ?_, fun i hi => ?_⟩
      · cases i with
        | zero =>
          rw [Nat.add_zero, h4 k (by omega), Arr.set_get_self]
          rfl
        | succ i =>
          rw [List.length_cons] at hi
          rw [show k + (i + 1) = k + 1 + i by omega, h3 i (by omega)]
          rfl
      · rw [h4 i (by omega), Arr.set_get_ne _ _ (by omega)]
    · rw [if_neg hkl]
      have : gs = [] := List.length_eq_zero_iff.1 (by omega)
      subst this
      exact ⟨_, rfl, rfl, rfl, by simp, fun _ _ => rfl⟩

theorem Ok_hbCards {β : Type} (g : List Char → β) {cnt w lim : ℕ} (hw : w < 128) (rest : List (List Char)) :
    ∀ (lines : List (List Char)) (b : ℕ → Char) (fs : List (List Char)) (k : ℕ) (a : Arr β),
    (∀ l ∈ lines, l.length < 1024 ∧ '\x00' ∉ l) → Cards cnt w lines fs → k + fs.length = lim → a.size = lim →
    Ok (hbCards ((cnt : ℤ), (w : ℤ)) lim (fun k f (a : Arr β) => a.wr k (g f)) lines.length b (lines ++ rest) k a) fun r =>
      ∃ a' b', r = .ok (a', b', rest) ∧ FieldsIn g fs k a a' := by
  intro lines
  induction lines with
  | nil =>
    intro b fs k a _ hc _ _
    have : fs = [] := hc
    subst this
    exact ⟨_, rfl, a, b, rfl, rfl, by simp, fun _ _ => rfl⟩
  | cons l lines ih =>
    rintro b fs k a hl ⟨⟨tail, ht⟩, hf, hc⟩ hk ha
    rw [List.length_cons, List.cons_append, hbCards, Ok_obind]
    have hlen : (fs.take cnt).length = min cnt (lim - k) := by rw [List.length_take]; omega
    refine (Ok_hbRow g b (hl l (by simp)).1 (hl l (by simp)).2 hw tail cnt (fs.take cnt) 0 k a (by omega)
      (by rw [List.drop_zero]; exact ht) hf hlen ha (by omega)).mono ?_
    rintro ⟨k', a1⟩ ⟨h1, h2, h3, h4⟩
    simp only at h1 h2 h3 h4 ⊢
    refine (ih (bufPut b l) (fs.drop cnt) k' a1 (fun l' hl' => hl l' (by simp [hl'])) hc
      (by rw [h1, List.length_drop, List.length_take]; omega) (by omega)).mono ?_
    rintro r ⟨a', b', rfl, g2, g3, g4⟩
    refine ⟨a', b', rfl, by omega, fun i hi => ?_, fun i hi => ?_⟩
    · rw [List.length_take] at h1
      by_cases hic : i < (fs.take cnt).length
      · rw [g4 (k + i) (by rw [List.length_take] at hic; omega), h3 i hic]
        rw [List.length_take] at hic
        rw [List.getD_eq_getElem?_getD, List.getD_eq_getElem?_getD, List.getElem?_take_of_lt (by omega)]
      · rw [List.length_take] at hic
        have := g3 (i - cnt) (by rw [List.length_drop]; omega)
        rw [show k' + (i - cnt) = k + i by omega] at this
        rw [this, List.getD_eq_getElem?_getD, List.getD_eq_getElem?_getD, List.getElem?_drop,
          show cnt + (i - cnt) = i by omega]
    · rw [g4 i (by omega), h4 i hi]

/-- at the end of the file: LIS_ERR_FILE_IO, whatever the format -/
theorem FieldsIn.all {β : Type} {g : List Char → β} {fs : List (List Char)} {a a' : Arr β} (h : FieldsIn g fs 0 a a')
    {i : ℕ} (hi : i < fs.length) : a'.get i = g (fs.getD i []) := by
  have := h.2.1 i hi
  rwa [Nat.zero_add] at this

/-! ### header -/

theorem CardLine.scan {l : List Char} {tot p i v r : ℕ} (h : CardLine l tot p i v r) :
    ∃ more, scanDs 14 5 l = (tot : ℤ) :: (p : ℤ) :: (i : ℤ) :: (v : ℤ) :: more ∧ more.headD 0 = (r : ℤ) := by
  obtain ⟨rest, h | ⟨h1, h2, h3⟩⟩ := h
  · have := h.scan (w := 14) le_rfl 0
    exact ⟨_, this, rfl⟩
  · have := h2.scan (w := 14) le_rfl 1
    refine ⟨_, this, ?_⟩
    rw [scanDs, scanD_blank h3, h1]
    rfl

theorem scanS_word {b : ℕ} {w s : List Char} (hw : ∀ c ∈ w, cSpace c = false) (hne : w ≠ [])
    (hs : ∀ c, s.head? = some c → c = ' ' ∨ c = '\n') :
    scanS (List.replicate b ' ' ++ (w ++ s)) = (w, s) := by
  have hd : (w ++ s).dropWhile cSpace = w ++ s := by
    obtain ⟨x, g', rfl⟩ := List.exists_cons_of_ne_nil hne
    rw [List.cons_append, List.dropWhile_cons_of_neg (by simp [hw x (by simp)])]
  have ht : (w ++ s).takeWhile (fun c => !cSpace c) = w := by
    refine takeWhile_append_stop (fun c hc => by simp [hw c hc]) fun c hc => ?_
    rcases hs c hc with rfl | rfl <;> decide
  have hdr : ∀ w : List Char, (∀ c ∈ w, cSpace c = false) → (w ++ s).dropWhile (fun c => !cSpace c) = s := by
    intro w hw
    induction w with
    | nil =>
      cases s with
      | nil => rfl
      | cons c s =>
        rw [List.nil_append, List.dropWhile_cons_of_neg]
        rcases hs c rfl with rfl | rfl <;> decide
    | cons x w ih =>
      rw [List.cons_append, List.dropWhile_cons_of_pos (by simp [hw x (by simp)])]
      exact ih fun c hc => hw c (by simp [hc])
  unfold scanS
  simp only
  rw [dropWhile_blank, hd, ht, hdr w hw]

theorem toLower_space {c : Char} (h : cSpace c = true) : c.toLower = c := by
  unfold cSpace at h
  simp only [Bool.or_eq_true, beq_iff_eq] at h
  rcases h with ((((rfl | rfl) | rfl) | rfl) | rfl) | rfl <;> decide

theorem TypeLine.scan {l : List Char} {n nnz : ℕ} (h : TypeLine l n nnz) :
    hbLine3 l = some (some ((n : ℤ), (nnz : ℤ))) := by
  obtain ⟨b, w, s, e, rest, rfl, hw, hs⟩ := h
  have hlen : w.length = 3 := by
    have := congrArg List.length hw
    simpa using this
  have hsp : ∀ c ∈ w, cSpace c = false := by
    intro c hc
    by_contra hcs
    have hcs : cSpace c = true := by simpa using hcs
    have : c.toLower ∈ w.map Char.toLower := List.mem_map_of_mem hc
    rw [hw, toLower_space hcs] at this
    simp only [List.mem_cons, List.not_mem_nil, or_false] at this
    rcases this with rfl | rfl | rfl <;> exact absurd hcs (by decide)
  have hne : w ≠ [] := by rintro rfl; simp at hlen
  have hnum : Numbers [n, n, nnz, e] (' ' :: s) rest := by
    obtain ⟨b', f, s', rfl, h1, h2, h3, h4⟩ := hs
    exact ⟨b' + 1, f, s', rfl, h1, h2, h3, h4⟩
  unfold hbLine3
  simp only
  rw [scanS_word hsp hne (by rintro c hc; left; simpa using hc.symm)]
  simp only
  rw [if_neg (by omega), if_neg hne]
  have := hnum.scan (w := (List.replicate b ' ' ++ (w ++ ' ' :: s)).length + 14) (by omega) 0
  have h4 : scanDs ((List.replicate b ' ' ++ (w ++ ' ' :: s)).length + 14) 4 (' ' :: s) =
      [(n : ℤ), (n : ℤ), (nnz : ℤ), (e : ℤ)] := this
  rw [h4, hw]
  simp

theorem cSpace_of_ge {c : Char} (h : 33 ≤ c.toNat) : cSpace c = false := by
  by_contra hcs
  have hcs : cSpace c = true := by simpa using hcs
  unfold cSpace at hcs
  simp only [Bool.or_eq_true, beq_iff_eq] at hcs
  rcases hcs with ((((rfl | rfl) | rfl) | rfl) | rfl) | rfl <;> exact absurd h (by decide)

theorem RhsLine.scan {l : List Char} (h : RhsLine l) : (scanS l).1.length < 64 := by
  obtain ⟨b, w, s, rfl, h1, h2, h3, h4⟩ := h
  rw [scanS_word (fun c hc => cSpace_of_ge (h2 c hc)) h1 h4]
  exact h3

theorem FormatLine.scan (b : ℕ → Char) {l : List Char} {pf xf vf : ℕ × ℕ} (h : FormatLine l pf xf vf)
    (hl : l.length < 1024) (h0 : '\x00' ∉ l) (J : ℕ → ℤ × ℤ) :
    getFmt (J 0) (bufPut b l) 0 16 = some ((pf.1 : ℤ), (pf.2 : ℤ)) ∧
    getFmt (J 1) (bufPut b l) 16 16 = some ((xf.1 : ℤ), (xf.2 : ℤ)) ∧
    getFmt (J 2) (bufPut b l) 32 20 = some ((vf.1 : ℤ), (vf.2 : ℤ)) ∧
    ∃ r, getFmt (J 3) (bufPut b l) 52 20 = some r := by
  obtain ⟨p, x, v, r, rfl, hp, hx, hv, f1, f2, f3, f4⟩ := h
  have hlen : 52 ≤ (p ++ (x ++ (v ++ r))).length := by simp; omega
  have d1 : ((p ++ (x ++ (v ++ r))).drop 0).take 16 = p := by
    rw [List.drop_zero, ← hp, List.take_left]
  have d2 : ((p ++ (x ++ (v ++ r))).drop 16).take 16 = x := by
    rw [show (16 : ℕ) = p.length from hp.symm, List.drop_left, hp, ← hx, List.take_left]
  have e3 : (p ++ (x ++ (v ++ r))).drop 32 = v ++ r := by
    rw [show (32 : ℕ) = p.length + x.length by omega, ← List.drop_drop, List.drop_left, List.drop_left]
  have d3 : ((p ++ (x ++ (v ++ r))).drop 32).take 20 = v := by
    rw [e3, ← hv, List.take_left]
  have d4 : (p ++ (x ++ (v ++ r))).drop 52 = r := by
    rw [show (52 : ℕ) = 32 + v.length by omega, ← List.drop_drop, e3, List.drop_left]
  unfold getFmt
  rw [cStr_bufPut b hl h0 16 0 (by omega), cStr_bufPut b hl h0 16 16 (by omega), cStr_bufPut b hl h0 20 32 (by omega),
    cStr_bufPut b hl h0 20 52 hlen, d1, d2, d3, d4]
  simp only [Option.bind_some]
  refine ⟨f1.get _, f2.get _, f3.get _, ?_⟩
  rcases f4 with f4 | ⟨c, w, f4⟩
  · exact ⟨_, getFmtStr_noParen f4 _⟩
  · exact ⟨_, f4.get _⟩

end Lis
