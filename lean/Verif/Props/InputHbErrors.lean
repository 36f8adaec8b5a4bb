import Verif.Props.InputHb

/-!
# C65: files that are refused, and files that are misread
-/

namespace Lis
variable {R : Type}

/-! ### refused -/

theorem hbCards_short {β : Type} (g : List Char → β) {cnt w lim : ℕ} (hw : w < 128) :
    ∀ (lines : List (List Char)) (b : ℕ → Char) (fs : List (List Char)) (k : ℕ) (a : Arr β) (m : ℕ),
    (∀ l ∈ lines, l.length < 1024 ∧ '\x00' ∉ l) → Cards cnt w lines fs → k + fs.length = lim → a.size = lim →
    m < lines.length →
    hbCards ((cnt : ℤ), (w : ℤ)) lim (fun k f (a : Arr β) => a.wr k (g f)) lines.length b (lines.take m) k a =
      some (.error .fileIo) := by
  intro lines
  induction lines with
  | nil => intro b fs k a m _ _ _ _ hm; simp at hm
  | cons l lines ih =>
    rintro b fs k a m hl ⟨⟨tail, ht⟩, hf, hc⟩ hk ha hm
    cases m with
    | zero => rfl
    | succ m =>
      rw [List.length_cons, List.take_succ_cons, hbCards]
      have hlen : (fs.take cnt).length = min cnt (lim - k) := by rw [List.length_take]; omega
      obtain ⟨⟨k', a1⟩, e, h1, h2, -⟩ := Ok_hbRow g b (hl l (by simp)).1 (hl l (by simp)).2 hw tail cnt (fs.take cnt) 0 k a
        (by omega) (by rw [List.drop_zero]; exact ht) hf hlen ha (by omega)
      simp only at h1 h2
      rw [Int.toNat_natCast, e]
      simp only [Option.bind_some]
      exact ih (bufPut b l) (fs.drop cnt) k' a1 m (fun l' hl' => hl l' (by simp [hl'])) hc
        (by rw [h1, List.length_drop, List.length_take]; omega) (by omega) (by rw [List.length_cons] at hm; omega)

theorem hbCards_take {β : Type} (g : List Char → β) {cnt w lim : ℕ} (hw : w < 128)
    {lines : List (List Char)} (b : ℕ → Char) {fs : List (List Char)} (a : Arr β) (rest : List (List Char)) (m : ℕ)
    (hl : ∀ l ∈ lines, l.length < 1024 ∧ '\x00' ∉ l) (hc : Cards cnt w lines fs) (hk : fs.length = lim) (ha : a.size = lim) :
    (m < lines.length → hbCards ((cnt : ℤ), (w : ℤ)) lim (fun k f (a : Arr β) => a.wr k (g f)) lines.length b
      ((lines ++ rest).take m) 0 a = some (.error .fileIo)) ∧
    (lines.length ≤ m → ∃ a' b', hbCards ((cnt : ℤ), (w : ℤ)) lim (fun k f (a : Arr β) => a.wr k (g f)) lines.length b
      ((lines ++ rest).take m) 0 a = some (.ok (a', b', rest.take (m - lines.length))) ∧ a'.size = a.size) := by
  constructor
  · intro hm
    rw [List.take_append_of_le_length hm.le]
    exact hbCards_short g hw lines b fs 0 a m hl hc (by omega) ha hm
  · intro hm
    rw [List.take_append, List.take_of_length_le hm]
    obtain ⟨r, e, a', b', rfl, h⟩ := Ok_hbCards g hw (rest.take (m - lines.length)) lines b fs 0 a hl hc (by omega) ha
    exact ⟨a', b', e, h.1⟩

/-- a file that ends within the header or the numbers (`k` lines where the file needs more) -/
theorem hbRead_truncated (num : List Char → R) (J : HbJunk R) {title l2 l3 l4 : List Char} {l5 lp li lv : List (List Char)}
    {tot r n nnz : ℕ} {pf xf vf : ℕ × ℕ} {fp fi fv : List (List Char)} (hn : 0 < n)
    (hl : ∀ l ∈ title :: l2 :: l3 :: l4 :: (l5 ++ (lp ++ (li ++ lv))), l.length < 1024 ∧ '\x00' ∉ l)
    (c2 : CardLine l2 tot lp.length li.length lv.length r) (c3 : TypeLine l3 n nnz) (c4 : FormatLine l4 pf xf vf)
    (c5 : if r = 0 then l5 = [] else ∃ l, l5 = [l] ∧ RhsLine l) (wp : pf.2 < 128) (wi : xf.2 < 128) (wv : vf.2 < 128)
    (kp : Cards pf.1 pf.2 lp fp) (ki : Cards xf.1 xf.2 li fi) (kv : Cards vf.1 vf.2 lv fv)
    (lfp : fp.length = n + 1) (lfi : fi.length = nnz) (lfv : fv.length = nnz) (k : ℕ)
    (hk : k < 4 + l5.length + lp.length + li.length + lv.length) :
    hbRead num J ((title :: l2 :: l3 :: l4 :: (l5 ++ (lp ++ (li ++ lv)))).take k) = some (.error .fileIo) := by
  obtain ⟨m, s2, s2r⟩ := c2.scan
  have hl4 := hl l4 (by simp)
  match k, hk with
  | 0, _ => rfl
  | 1, _ => rfl
  | 2, _ =>
    unfold hbRead
    simp only [List.take_succ_cons, List.take_zero, hbHeader, s2, Option.bind_some]
  | 3, _ =>
    unfold hbRead
    simp only [List.take_succ_cons, List.take_zero, hbHeader, s2, c3.scan, Option.bind_some]
  | k + 4, hk =>
    simp only [List.take_succ_cons]
    by_cases hk5 : k < l5.length
    · -- line 5 is missing
      obtain ⟨b3, hb3⟩ : ∃ b, b = bufPut (bufPut (bufPut J.buf title) l2) l3 := ⟨_, rfl⟩
      obtain ⟨g0, g1, g2, g3, hg3⟩ := c4.scan b3 hl4.1 hl4.2 J.fmt
      have hr : r ≠ 0 := by
        rintro rfl
        rw [if_pos rfl] at c5
        subst c5
        simp at hk5
      rw [if_neg hr] at c5
      obtain ⟨l, rfl, -⟩ := c5
      have hk0 : k = 0 := by simpa using hk5
      subst hk0
      have hr' : (r : ℤ) ≠ 0 := by omega
      unfold hbRead hbHeader
      simp only [List.take_zero, s2, c3.scan, Option.bind_some, ← hb3, g0, g1, g2, hg3, s2r, hbLine5, ne_eq, hr',
        not_false_eq_true, if_true, Option.map_some, Except.map]
    · have hk5 : l5.length ≤ k := by omega
      rw [List.take_append, List.take_of_length_le hk5]
      obtain ⟨b, hhead⟩ := hbHeader_spec J (title := title) (tl := (lp ++ (li ++ lv)).take (k - l5.length)) c2 c3 c4 c5 hl4.1 hl4.2
      obtain ⟨q, hq⟩ : ∃ q, q = k - l5.length := ⟨_, rfl⟩
      rw [← hq] at hhead ⊢
      unfold hbRead
      rw [hhead]
      simp only [Option.bind_some]
      rw [if_neg (by omega), if_neg (by omega)]
      simp only [Int.toNat_natCast]
      obtain ⟨p1, p2⟩ := hbCards_take (lim := n + 1) (fun f => cAtoi f - 1) wp b (Arr.malloc (n + 1) J.ptr) (li ++ lv) q
        (fun l hl' => hl l (by simp [hl'])) kp lfp rfl
      by_cases h1 : q < lp.length
      · rw [p1 h1]; rfl
      have h1' : lp.length ≤ q := by omega
      have hlt : ¬ q - lp.length < li.length → q - lp.length - li.length < lv.length := by omega
      obtain ⟨ptr, b1, e1, -⟩ := p2 h1'
      rw [e1]
      simp only [Option.bind_some]
      obtain ⟨i1, i2⟩ := hbCards_take (lim := nnz) (fun f => cAtoi f - 1) wi b1 (Arr.malloc nnz J.index) lv (q - lp.length)
        (fun l hl' => hl l (by simp [hl'])) ki lfi rfl
      by_cases h2 : q - lp.length < li.length
      · rw [i1 h2]; rfl
      have h2' : li.length ≤ q - lp.length := le_of_not_gt h2
      obtain ⟨index, b2, e2, -⟩ := i2 h2'
      rw [e2]
      simp only [Option.bind_some]
      obtain ⟨v1, -⟩ := hbCards_take (lim := nnz) num wv b2 (Arr.malloc nnz J.value) [] (q - lp.length - li.length)
        (fun l hl' => hl l (by simp [hl'])) kv lfv rfl
      have := v1 (hlt h2)
      rw [List.append_nil] at this
      rw [this]
      rfl

/-- **C65.** Of a Harwell-Boeing file only the first `k` lines are there: either `lis_input` refuses it with
`LIS_ERR_FILE_IO`, or all its numbers are still there and it is a file for the same matrix. -/
theorem inputHb_truncated [AddCommMonoid R] [DecidableEq R] (num : List Char → R) (J : HbJunk R) (C : ConvJunk R)
    (a : ConvArgs) (t : Fmt) {file : List (List Char)} {n : ℕ} {P I : List ℕ} {V : List R}
    (h : HbFile num file n P I V) (k : ℕ) :
    inputHb num J C a t (file.take k) = some (.error .fileIo) ∨ HbFile num (file.take k) n P I V := by
  obtain ⟨title, l2, l3, l4, l5, lp, li, lv, more, tot, r, pf, xf, vf, fp, fi, fv, rfl, c2, c3, c4, c5, wp, wi, wv,
    kp, ki, kv, ep, ei, ev⟩ := h.parts
  have hl := h.lines
  have lfp : fp.length = n + 1 := by rw [ep.length_eq, h.plen]
  have lfi : fi.length = I.length := ei.length_eq
  have lfv : fv.length = I.length := by rw [← h.vlen, ev, List.length_map]
  have happ : title :: l2 :: l3 :: l4 :: (l5 ++ (lp ++ (li ++ (lv ++ more)))) =
      (title :: l2 :: l3 :: l4 :: (l5 ++ (lp ++ (li ++ lv)))) ++ more := by simp
  have hlen : (title :: l2 :: l3 :: l4 :: (l5 ++ (lp ++ (li ++ lv)))).length =
      4 + l5.length + lp.length + li.length + lv.length := by simp; omega
  by_cases hk : k < 4 + l5.length + lp.length + li.length + lv.length
  · left
    rw [happ, List.take_append_of_le_length (by omega)]
    unfold inputHb
    rw [hbRead_truncated num J h.npos (fun l hl' => hl l (by rw [happ]; exact List.mem_append_left _ hl')) c2 c3 c4 c5 wp wi wv
      kp ki kv lfp lfi lfv k hk]
    rfl
  · right
    refine ⟨fun l hl' => hl l (List.mem_of_mem_take hl'), ?_, h.npos, h.plen, h.vlen, h.first, h.last, h.mono, h.rows⟩
    refine ⟨title, l2, l3, l4, l5, lp, li, lv, more.take (k - (4 + l5.length + lp.length + li.length + lv.length)), tot, r,
      pf, xf, vf, fp, fi, fv, ?_, c2, c3, c4, c5, wp, wi, wv, kp, ki, kv, ep, ei, ev⟩
    rw [happ, List.take_append, List.take_of_length_le (by omega), hlen]
    simp

/-- **C65.** Anything but a real (`R`), unsymmetric (`U`), assembled (`A`) square matrix is refused with
`LIS_ERR_FILE_IO`, before anything is allocated. -/
theorem inputHb_type [AddCommMonoid R] [DecidableEq R] (num : List Char → R) (J : HbJunk R) (C : ConvJunk R)
    (a : ConvArgs) (t : Fmt) {title l2 s w : List Char} {tot p i v r n m nnz e b : ℕ} {rest : List Char}
    (tl : List (List Char)) (c2 : CardLine l2 tot p i v r) (hw : ∀ c ∈ w, 33 ≤ c.toNat) (hw0 : w ≠ []) (hw64 : w.length < 64)
    (hs : Numbers [n, m, nnz, e] s rest)
    (h : ¬ ['r', 'u', 'a'] <+: w.map Char.toLower ∨ n ≠ m) :
    inputHb num J C a t (title :: l2 :: (List.replicate b ' ' ++ (w ++ ' ' :: s)) :: tl) = some (.error .fileIo) := by
  obtain ⟨more, s2, -⟩ := c2.scan
  have hnum : Numbers [n, m, nnz, e] (' ' :: s) rest := by
    obtain ⟨b', f, s', rfl, h1, h2, h3, h4⟩ := hs
    exact ⟨b' + 1, f, s', rfl, h1, h2, h3, h4⟩
  have h3 : hbLine3 (List.replicate b ' ' ++ (w ++ ' ' :: s)) = some none := by
    unfold hbLine3
    simp only
    rw [scanS_word (fun c hc => cSpace_of_ge (hw c hc)) hw0 (by rintro c hc; left; simpa using hc.symm)]
    simp only
    rw [if_neg (by omega), if_neg hw0]
    have := hnum.scan (w := (List.replicate b ' ' ++ (w ++ ' ' :: s)).length + 14) (by omega) 0
    have h4 : scanDs ((List.replicate b ' ' ++ (w ++ ' ' :: s)).length + 14) 4 (' ' :: s) =
        [(n : ℤ), (m : ℤ), (nnz : ℤ), (e : ℤ)] := this
    rw [h4]
    simp only
    obtain ⟨u, hu⟩ : ∃ u, u = w.map Char.toLower := ⟨_, rfl⟩
    rw [← hu] at h ⊢
    by_cases h0 : u[0]? = some 'r'
    · rw [if_neg (by simp [h0])]
      by_cases h1 : u[1]? = some 'u'
      · rw [if_neg (by simp [h1])]
        by_cases h2 : u[2]? = some 'a'
        · rw [if_neg (by simp [h2])]
          have hp : ['r', 'u', 'a'] <+: u := by
            match u, h0, h1, h2 with
            | x :: y :: z :: u, h0, h1, h2 =>
              simp at h0 h1 h2
              subst h0 h1 h2
              exact ⟨u, rfl⟩
          have hne : (n : ℤ) ≠ m := by
            rcases h with h | h
            · exact absurd hp h
            · omega
          rw [if_pos hne]
        · rw [if_pos h2]
      · rw [if_pos h1]
    · rw [if_pos h0]
  unfold inputHb hbRead hbHeader
  simp only [s2, h3, Option.bind_some]

/-! ### misread -/

/-- A format with a scale factor, such as `(1P,3E25.16)` or `(1P3E25.16)`: the number of fields per line is taken to be the
scale factor. -/
theorem getFmtStr_scale {b : ℕ} {a c u t : List Char} {x : Char} {k w : ℕ} (junk : ℤ × ℤ) (ha : Digits a k)
    (hc : Digits c w) (hx : x = 'E' ∨ x = 'e') {s : List Char} (hs : ∀ y ∈ s, y.isDigit ∨ y = ',')
    (hu : ∀ y ∈ u, y.isDigit) :
    getFmtStr junk (List.replicate b ' ' ++ '(' :: (a ++ 'P' :: (s ++ x :: (c ++ '.' :: (u ++ ')' :: t))))) =
      some ((k : ℤ), (w : ℤ)) := by
  have hxl : x.toLower = 'e' := by rcases hx with rfl | rfl <;> decide
  have hsl : s.map Char.toLower = s := by
    refine (List.map_congr_left fun y hy => ?_).trans (List.map_id s)
    rcases hs y hy with h | rfl
    · exact toLower_isDigit h
    · decide
  have hul : u.map Char.toLower = u :=
    (List.map_congr_left fun y hy => toLower_isDigit (hu y hy)).trans (List.map_id u)
  have hsn : ∀ z : Char, z.isDigit = false → z ≠ ',' → z ∉ s := fun z h1 h2 hz => by
    rcases hs z hz with h | h
    · rw [h1] at h; cases h
    · exact h2 h
  have hun : ∀ z : Char, z.isDigit = false → z ∉ u := fun z h1 hz => by
    have := hu z hz
    rw [h1] at this
    cases this
  unfold getFmtStr
  simp only [List.map_append, map_blank, List.map_cons, ha.lower, hc.lower, hsl, hul, hxl]
  rw [show Char.toLower '(' = '(' by decide, show Char.toLower ')' = ')' by decide, show Char.toLower '.' = '.' by decide,
    show Char.toLower 'P' = 'p' by decide, cutAt_append (not_blank (by decide) b)]
  simp only
  rw [show a ++ 'p' :: (s ++ 'e' :: (c ++ '.' :: (u ++ ')' :: t.map Char.toLower))) =
      (a ++ 'p' :: (s ++ 'e' :: (c ++ '.' :: u))) ++ ')' :: t.map Char.toLower by simp,
    cutAt_append (by
      simp [ha.notMem (x := ')'), hc.notMem (x := ')'), hsn ')' (by decide) (by decide), hun ')' (by decide)])]
  simp only
  rw [cutAt_none (c := 'i') (by
      simp [ha.notMem (x := 'i'), hc.notMem (x := 'i'), hsn 'i' (by decide) (by decide), hun 'i' (by decide)])]
  simp only
  rw [show a ++ 'p' :: (s ++ 'e' :: (c ++ '.' :: u)) = (a ++ 'p' :: s) ++ 'e' :: (c ++ '.' :: u) by simp,
    cutAt_append (by simp [ha.notMem (x := 'e'), hsn 'e' (by decide) (by decide)])]
  simp only [Option.some_or]
  rw [show (a ++ 'p' :: s) ++ 'e' :: (c ++ '.' :: u) = (a ++ 'p' :: (s ++ 'e' :: c)) ++ '.' :: u by simp,
    cutAt_append (by simp [ha.notMem (x := '.'), hc.notMem (x := '.'), hsn '.' (by decide) (by decide)])]
  simp only
  rw [if_neg (by simp)]
  have hlen : (a ++ 'p' :: (s ++ 'e' :: c)).length - (a ++ 'p' :: s).length - 1 = c.length := by
    simp only [List.length_append, List.length_cons]; omega
  have hk : cAtoi (a ++ 'p' :: s) = k := by
    have := cAtoi_digits (b := 0) (s := 'p' :: s) ha (by rintro c hc; simp at hc; subst hc; decide)
    simpa using this
  rw [hlen, List.take_left, cAtoi_pure hc, hk]

/-- An `F` format, such as `(5F16.8)`: `lis_input_hb_get_fmt` returns LIS_FAILS, which is ignored, and the number and the
width of the fields are whatever was in memory. -/
theorem getFmtStr_f {b : ℕ} {a c t : List Char} {x : Char} (junk : ℤ × ℤ) (hx : x = 'F' ∨ x = 'f')
    (ha : ∀ y ∈ a, y.isDigit) (hc : ∀ y ∈ c, y.isDigit ∨ y = '.') :
    getFmtStr junk (List.replicate b ' ' ++ '(' :: (a ++ x :: (c ++ ')' :: t))) = some junk := by
  have hxl : x.toLower = 'f' := by rcases hx with rfl | rfl <;> decide
  have hal : a.map Char.toLower = a :=
    (List.map_congr_left fun y hy => toLower_isDigit (ha y hy)).trans (List.map_id a)
  have hcl : c.map Char.toLower = c := by
    refine (List.map_congr_left fun y hy => ?_).trans (List.map_id c)
    rcases hc y hy with h | rfl
    · exact toLower_isDigit h
    · decide
  have han : ∀ z : Char, z.isDigit = false → z ∉ a := fun z h1 hz => by
    have := ha z hz
    rw [h1] at this
    cases this
  have hcn : ∀ z : Char, z.isDigit = false → z ≠ '.' → z ∉ c := fun z h1 h2 hz => by
    rcases hc z hz with h | h
    · rw [h1] at h; cases h
    · exact h2 h
  unfold getFmtStr
  simp only [List.map_append, map_blank, List.map_cons, hal, hcl, hxl]
  rw [show Char.toLower '(' = '(' by decide, show Char.toLower ')' = ')' by decide, cutAt_append (not_blank (by decide) b)]
  simp only
  rw [show a ++ 'f' :: (c ++ ')' :: t.map Char.toLower) = (a ++ 'f' :: c) ++ ')' :: t.map Char.toLower by simp,
    cutAt_append (by simp [han ')' (by decide), hcn ')' (by decide) (by decide)])]
  simp only
  rw [cutAt_none (c := 'i') (by simp [han 'i' (by decide), hcn 'i' (by decide) (by decide)]),
    cutAt_none (c := 'e') (by simp [han 'e' (by decide), hcn 'e' (by decide) (by decide)]),
    cutAt_none (c := 'd') (by simp [han 'd' (by decide), hcn 'd' (by decide) (by decide)])]
  rfl

/-- With a field count of 0 (for instance left over in memory) the lines are skipped, nothing is stored, and that counts as
success: the array keeps what was in fresh memory. -/
theorem hbCards_none {σ : Type} (w : ℤ) (lim : ℕ) (put : ℕ → List Char → σ → Option σ) (rest : List (List Char)) :
    ∀ (lines : List (List Char)) (b : ℕ → Char) (k : ℕ) (s : σ),
    ∃ b', hbCards (0, w) lim put lines.length b (lines ++ rest) k s = some (.ok (s, b', rest)) := by
  intro lines
  induction lines with
  | nil => intro b k s; exact ⟨b, rfl⟩
  | cons l lines ih => intro b k s; exact ih (bufPut b l) k s

end Lis
