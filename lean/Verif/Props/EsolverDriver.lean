import Verif.Spec.EsolverDriver
import Verif.Props.Options

/-!
# C58: eigensolver options and the driver `lis_esolve`
-/

namespace Lis
variable {D : Type}

theorem EKey.idx_inj {a b : EKey} (h : a.idx = b.idx) : a = b := by
  cases a <;> cases b <;> first | rfl | (exact absurd h (by decide))
theorem EPar.idx_inj {a b : EPar} (h : a.idx = b.idx) : a = b := by
  cases a <;> cases b <;> first | rfl | (exact absurd h (by decide))
theorem EKey.idx_lt (a : EKey) : a.idx < 13 := by cases a <;> decide
theorem EPar.idx_lt (a : EPar) : a.idx < 3 := by cases a <;> decide

theorem eview_setOpt (s : LSolver D) (k : EKey) (v : Int) :
    LSolver.eview { s with options := s.options.set k.idx v } = s.eview.setOpt k v := by
  ext k'
  · show (s.options.set k.idx v).get k'.idx = if k' = k then v else s.options.get k'.idx
    by_cases h : k' = k
    · subst h; simp
    · rw [Arr.set_get_ne _ _ (fun h' => h (EKey.idx_inj h')), if_neg h]
  · rfl

theorem eview_setPar (s : LSolver D) (k : EPar) (v : D) :
    LSolver.eview { s with params := s.params.set k.idx v } = s.eview.setPar k v := by
  ext k'
  · rfl
  · show (s.params.set k.idx v).get k'.idx = if k' = k then v else s.params.get k'.idx
    by_cases h : k' = k
    · subst h; simp
    · rw [Arr.set_get_ne _ _ (fun h' => h (EPar.idx_inj h')), if_neg h]

/-- result of an option against its meaning -/
def EOptOk (s : LSolver D) (spec : Option (ESettings D)) (r : Err × LSolver D) : Prop :=
  r.2.ESized ∧ r.2.retcode = s.retcode ∧ match spec with
    | some v => r.1 = .success ∧ r.2.eview = v
    | none => r.1 = .illArg ∧ r.2.eview = s.eview

theorem escanInto_spec {s : LSolver D} (hs : s.ESized) (v : List Char) (k : EKey) :
    ∃ s', scanInto v k.idx s = some s' ∧ s'.ESized ∧ s'.retcode = s.retcode ∧
      s'.eview = (match scanInt v with | some i => s.eview.setOpt k i | none => s.eview) := by
  have hk : k.idx < s.options.size := by rw [hs.1]; exact k.idx_lt
  refine ⟨{ s with options := s.options.set k.idx ((scanInt v).getD (s.options.get k.idx)) },
    by simp only [scanInto, Arr.rd, Arr.wr, if_pos hk]; rfl, ⟨hs.1, hs.2⟩, rfl, ?_⟩
  rw [eview_setOpt]
  cases h : scanInt v with
  | some i => rfl
  | none =>
    ext k'
    · show (if k' = k then s.options.get k.idx else s.options.get k'.idx) = s.options.get k'.idx
      by_cases e : k' = k
      · rw [if_pos e, e]
      · rw [if_neg e]
    · rfl

theorem esetEnum_spec {s : LSolver D} (hs : s.ESized) (v : List Char) (k : EKey) (hi : Char) (hhi : hi ≤ '9')
    (names : List String) (base : Int) :
    ∃ r, setEnum v k.idx hi names base s = some r ∧ EOptOk s ((choiceVal v hi base names).map (s.eview.setOpt k)) r := by
  have hk : k.idx < s.options.size := by rw [hs.1]; exact k.idx_lt
  unfold setEnum choiceVal
  dsimp only
  by_cases hd : '0' ≤ v.headD nul ∧ v.headD nul ≤ hi
  · obtain ⟨i, hi'⟩ := scanInt_digit hd.1 hd.2 hhi
    obtain ⟨s', h1, h2, h3, h4⟩ := escanInto_spec hs v k
    rw [hi'] at h4
    rw [if_pos hd, if_pos hd, h1, hi']
    exact ⟨(.success, s'), rfl, h2, h3, rfl, h4⟩
  · rw [if_neg hd, if_neg hd, nameLoop_eq]
    cases hf : names.findIdx? fun nm => nm.toList = v with
    | none => exact ⟨(.illArg, s), rfl, hs, rfl, rfl, rfl⟩
    | some i =>
      refine ⟨(.success, { s with options := s.options.set k.idx ((i : Int) + base) }), ?_, ⟨hs.1, hs.2⟩, rfl, rfl,
        eview_setOpt s k _⟩
      simp only [Option.map_some, Arr.wr, if_pos hk]
      rfl

theorem eoptLoop_filter (scanD : List Char → Option D) (dv : D) (a v : List Char) :
    ∀ (l : List (String × Int)) (s : LSolver D),
    eoptLoop scanD dv a v l s = eoptLoop scanD dv a v (l.filter fun p => a = p.1.toList) s := by
  intro l
  induction l with
  | nil => intro s; rfl
  | cons p r ih =>
    intro s
    obtain ⟨nm, act⟩ := p
    by_cases h : a = nm.toList
    · rw [List.filter_cons_of_pos (by simpa using h)]
      unfold eoptLoop
      simp only [ih]
    · rw [List.filter_cons_of_neg (by simpa using h), ← ih]
      conv => lhs; unfold eoptLoop
      rw [if_neg h]
      simp

/-- the entries of the table for a name -/
def eactsOf (a : List Char) : List (String × Int) := (eoptName.zip eoptAct).filter fun p => a = p.1.toList

/-- the action code of an option kind -/
def EKind.act : EKind → Int
  | .int k => k.idx
  | .real k => 13 + k.idx
  | .choice k _ _ _ => k.idx

theorem eacts_doc : ∀ p ∈ eoptDoc, eactsOf p.1.toList = [(p.1, p.2.act)] := by decide +kernel

theorem eacts_known : ∀ nm ∈ eoptName, (eoptDoc.find? fun p => p.1.toList = nm.toList).isSome := by decide +kernel

theorem eoptSwitch_spec (scanD : List Char → Option D) (dv : D) (v : List Char) {s : LSolver D} (hs : s.ESized) :
    ∀ p ∈ eoptDoc, ∃ r, eoptSwitch scanD dv p.2.act v s = some r ∧ EOptOk s (p.2.set scanD dv v s.eview) r := by
  have hint : ∀ (k : EKey) (act : Int), eoptSwitch scanD dv act v s = (scanInto v k.idx s).bind (fun s =>
      some (Err.success, s)) → ∃ r, eoptSwitch scanD dv act v s = some r ∧
        EOptOk s (EKind.set scanD dv v s.eview (.int k)) r := by
    intro k act ha
    obtain ⟨s', h1, h2, h3, h4⟩ := escanInto_spec hs v k
    exact ⟨(.success, s'), by rw [ha, h1]; rfl, h2, h3, rfl, h4⟩
  have hreal : ∀ (k : EPar) (act : Int), eoptSwitch scanD dv act v s =
      (s.params.wr k.idx ((scanD v).getD dv)).bind (fun p => some (Err.success, { s with params := p })) →
      ∃ r, eoptSwitch scanD dv act v s = some r ∧ EOptOk s (EKind.set scanD dv v s.eview (.real k)) r := by
    intro k act ha
    have hk : k.idx < s.params.size := by rw [hs.2]; exact k.idx_lt
    exact ⟨(.success, { s with params := s.params.set k.idx ((scanD v).getD dv) }),
      by rw [ha]; simp only [Arr.wr, if_pos hk]; rfl, ⟨hs.1, hs.2⟩, rfl, rfl, eview_setPar s k _⟩
  have hch : ∀ (k : EKey) (hi : Char) (names : List String) (base : Int) (act : Int), hi ≤ '9' →
      eoptSwitch scanD dv act v s = setEnum v k.idx hi names base s →
      ∃ r, eoptSwitch scanD dv act v s = some r ∧ EOptOk s (EKind.set scanD dv v s.eview (.choice k hi base names)) r := by
    intro k hi names base act h9 ha
    rw [ha]
    exact esetEnum_spec hs v k hi h9 names base
  intro p hp
  simp only [eoptDoc, List.mem_cons, List.not_mem_nil, or_false] at hp
  rcases hp with rfl|rfl|rfl|rfl|rfl|rfl|rfl|rfl|rfl|rfl|rfl|rfl|rfl|rfl|rfl
  all_goals first
    | exact hint _ _ rfl
    | exact hreal _ _ rfl
    | exact hch _ _ _ _ _ (by decide) rfl

/-- one name/value pair: no access outside the arrays; a documented option has its documented effect, an unknown one none; a
rejected value is reported and leaves the settings alone. -/
theorem esetOption2_spec (scanD : List Char → Option D) (dv : D) (name v : List Char) {s : LSolver D} (hs : s.ESized) :
    ∃ e s', esetOption2 scanD dv name v s = some (e, s') ∧ s'.ESized ∧
      match esetPair scanD dv (name, v) s.eview with
      | some w => e = .success ∧ s'.eview = w ∧ s'.retcode = s.retcode
      | none => e = .illArg ∧ s'.retcode = .illArg ∧ s'.eview = s.eview := by
  unfold esetOption2
  rw [eoptLoop_filter]
  change ∃ e s', eoptLoop scanD dv name v (eactsOf name) s = _ ∧ _
  cases hf : eoptDoc.find? fun p => p.1.toList = name with
  | none =>
    have ha : eactsOf name = [] := by
      unfold eactsOf
      rw [List.filter_eq_nil_iff]
      rintro ⟨nm, act⟩ hm
      simp only [decide_eq_true_eq]
      rintro rfl
      have := eacts_known nm (List.of_mem_zip hm).1
      rw [hf] at this
      exact absurd this (by simp)
    rw [ha]
    refine ⟨.success, s, rfl, hs, ?_⟩
    simp only [esetPair, eoptKind, hf, Option.map_none]
    simp
  | some p =>
    have hn : p.1.toList = name := by simpa using List.find?_some hf
    have hp : p ∈ eoptDoc := List.mem_of_find?_eq_some hf
    obtain ⟨⟨e, s1⟩, h1, h2, h3, h4⟩ := eoptSwitch_spec scanD dv v hs p hp
    rw [← hn, eacts_doc p hp]
    have hk : esetPair scanD dv (p.1.toList, v) s.eview = p.2.set scanD dv v s.eview := by
      simp only [esetPair, eoptKind]
      rw [hn, hf]
      rfl
    rw [hk]
    unfold eoptLoop
    rw [if_pos rfl, h1]
    simp only [Option.bind_eq_bind, Option.bind_some]
    cases hset : p.2.set scanD dv v s.eview with
    | none =>
      rw [hset] at h4
      simp only at h4
      obtain ⟨rfl, h4⟩ := h4
      exact ⟨_, _, rfl, h2, rfl, rfl, h4⟩
    | some w =>
      rw [hset] at h4
      simp only at h4
      obtain ⟨rfl, h4⟩ := h4
      exact ⟨_, _, rfl, h2, rfl, h4, h3⟩

/-- **`lis_esolver_set_option`, `…_set_optionC`** on a list of pairs: the settings are those of the pairs read left to right
(later ones win, unknown ones are ignored) up to the first rejected one, which is reported. -/
theorem esetOptionArgs_spec (scanD : List Char → Option D) (dv : D) :
    ∀ (l : List (List Char × List Char)) {s : LSolver D}, s.ESized →
    ∃ e s', esetOptionArgs scanD dv l s = some (e, s') ∧ s'.ESized ∧
      (let r := esetPairs scanD dv l s.eview
       s'.eview = r.2 ∧ (r.1 = true → e = .success ∧ s'.retcode = s.retcode) ∧
       (r.1 = false → e = .illArg ∧ s'.retcode = .illArg)) := by
  intro l
  induction l with
  | nil => intro s hs; exact ⟨.success, s, rfl, hs, rfl, fun _ => ⟨rfl, rfl⟩, by simp [esetPairs]⟩
  | cons p r ih =>
    intro s hs
    obtain ⟨e, s1, h1, h2, h3⟩ := esetOption2_spec scanD dv p.1 p.2 hs
    unfold esetOptionArgs esetPairs
    rw [h1]
    simp only [Option.bind_eq_bind, Option.bind_some]
    change match esetPair scanD dv p s.eview with | some w => _ | none => _ at h3
    cases hp : esetPair scanD dv p s.eview with
    | none =>
      rw [hp] at h3
      obtain ⟨rfl, h4, h5⟩ := h3
      exact ⟨_, _, rfl, h2, h5, by simp, fun _ => ⟨rfl, rfl⟩⟩
    | some w =>
      rw [hp] at h3
      obtain ⟨rfl, h4, h5⟩ := h3
      obtain ⟨e, s2, g1, g2, g3, g4, g5⟩ := ih h2
      rw [h4] at g3 g4 g5
      refine ⟨e, s2, g1, g2, g3, fun h => ?_, g5⟩
      exact ⟨(g4 h).1, (g4 h).2.trans h5⟩

/-- **`lis_esolver_set_option`** on a text of at most 1022 characters. -/
theorem esetOption_spec (scanD : List Char → Option D) (dv : D) (junk : Nat → Char) (text : List Char)
    (hn : ∀ c ∈ text, c ≠ nul) (hl : text.length ≤ 1022) {s : LSolver D} (hs : s.ESized) :
    ∃ e s', esetOption scanD dv junk text s = some (e, s') ∧ s'.ESized ∧
      (let r := esetPairs scanD dv (optionPairs text) s.eview
       s'.eview = r.2 ∧ (r.1 = true → e = .success ∧ s'.retcode = s.retcode) ∧
       (r.1 = false → e = .illArg ∧ s'.retcode = .illArg)) := by
  unfold esetOption
  rw [text2args_spec junk text hn hl]
  exact esetOptionArgs_spec scanD dv _ hs

theorem esolverInit_spec (lit : ℚ → D) (rc : Err) (j : Int) :
    (esolverInit lit rc j).ESized ∧ (esolverInit lit rc j).eview = edocDefault lit := by
  refine ⟨⟨rfl, rfl⟩, ?_⟩
  ext k <;> cases k <;> rfl

/-! ### the driver -/

variable {R S V : Type} [One R] [One S] (exec : Int → V → EArrs R S → Option (Err × V × EArrs R S)) (ones : V)
  (jR : ℕ → R) (jS : ℕ → S) (jI : ℕ → Int) (A : GArg) (B : Option GArg) (xn : Int) (x : V)

/-- the checks, as one condition: what is documented, except that `A` is not checked when there is a `B` -/
theorem gesolveCheck_iff (nes ss mode : Int) :
    (gesolveCheck A B xn nes ss mode = .success ∧ echeckParams nes ss = .success) ↔
      EValid { A with chk := if B.isSome then .success else A.chk } B xn nes ss mode := by
  constructor
  · rintro ⟨h, h'⟩
    unfold gesolveCheck at h
    unfold echeckParams at h'
    cases B with
    | none =>
      simp only [Option.any_none, Bool.false_eq_true, if_false] at h
      repeat' split at h <;> try (first | contradiction | exact absurd h ‹_›)
      split at h'
      · contradiction
      simp only [not_not, List.mem_cons, List.not_mem_nil, or_false, not_and, not_le, not_lt, not_or, gt_iff_lt, ge_iff_le] at *
      refine ⟨by simpa using ‹_›, by simp, by omega, by simp, by omega, by simp, by omega, by omega, ?_⟩
      intro hsub
      simp only [isSubspace, List.mem_cons, List.not_mem_nil, or_false] at hsub
      rcases hsub with h | h | h | h | h | h <;> subst h <;> simp_all
    | some b =>
      simp only [Option.any_some, decide_eq_true_eq] at h
      repeat' split at h <;> try (first | contradiction | exact absurd h ‹_›)
      split at h'
      · contradiction
      simp only [not_not, List.mem_cons, List.not_mem_nil, or_false, not_and, not_le, not_lt, not_or, gt_iff_lt, ge_iff_le] at *
      refine ⟨rfl, ?_, by simp; omega, ?_, by simp; omega, ?_, by omega, by omega, ?_⟩
      · rintro c hc; cases hc; assumption
      · rintro c hc; cases hc; omega
      · rintro c hc; cases hc; omega
      intro hsub
      simp only [isSubspace, List.mem_cons, List.not_mem_nil, or_false] at hsub
      rcases hsub with h | h | h | h | h | h <;> subst h <;> simp_all
  · rintro ⟨h1, h2, h3, h4, h5, h6, h7, h8, h9⟩
    have hs : ∀ k : Int, k ∈ ([6, 7, 8, 14, 15, 16] : List Int) → nes = k → 0 ≤ ss ∧ ss ≤ A.gn ∧ mode < ss := by
      rintro k hk rfl; exact h9 hk
    have e1 : ¬ (nes ∈ ([6, 14] : List Int) ∧ ss > A.gn) := by
      rintro ⟨h, h'⟩
      have := h9 (by simp only [List.mem_cons, List.not_mem_nil, or_false] at h; unfold isSubspace; rcases h with h | h <;> simp [h])
      have := this.2.1
      simp only at this; omega
    have e2 : ¬ (nes ∈ ([7, 8, 15, 16] : List Int) ∧ ss > A.gn) := by
      rintro ⟨h, h'⟩
      have := h9 (by simp only [List.mem_cons, List.not_mem_nil, or_false] at h; unfold isSubspace; rcases h with h | h | h | h <;> simp [h])
      have := this.2.1
      simp only at this; omega
    have e3 : ¬ (nes ∈ ([6, 14] : List Int) ∧ mode ≥ ss) := by
      rintro ⟨h, h'⟩
      have := h9 (by simp only [List.mem_cons, List.not_mem_nil, or_false] at h; unfold isSubspace; rcases h with h | h <;> simp [h])
      omega
    have e4 : ¬ (nes ∈ ([7, 8, 15, 16] : List Int) ∧ mode ≥ ss) := by
      rintro ⟨h, h'⟩
      have := h9 (by simp only [List.mem_cons, List.not_mem_nil, or_false] at h; unfold isSubspace; rcases h with h | h | h | h <;> simp [h])
      omega
    have e5 : ¬ (nes ∈ ([6, 7, 8, 14, 15, 16] : List Int) ∧ ss < 0) := by
      rintro ⟨h, h'⟩
      have := h9 h
      omega
    refine ⟨?_, by rw [echeckParams, if_neg e5]⟩
    unfold gesolveCheck
    simp only at h1 h3 h5
    cases B with
    | none =>
      simp only [Option.isSome_none, Bool.false_eq_true, if_false] at h1
      simp only [Option.any_none, Bool.false_eq_true, if_false]
      rw [if_neg (by simpa using h1), if_neg (by omega), if_neg (by omega), if_neg (by omega), if_neg e1, if_neg e2, if_neg e3,
        if_neg e4]
    | some b =>
      have g2 := h2 b rfl
      have g4 := h4 b rfl
      have g6 := h6 b rfl
      simp only [Option.any_some, decide_eq_true_eq]
      rw [if_neg (by simpa using g2), if_neg (by omega), if_neg (by omega), if_neg (by omega), if_neg (by omega),
        if_neg (by omega), if_neg e1, if_neg e2, if_neg e3, if_neg e4]

theorem ESized.rd {s : LSolver D} (hs : s.ESized) {k : ℕ} (hk : k < 13) : s.options.rd k = some (s.options.get k) := by
  rw [Arr.rd, if_pos (by rw [hs.1]; exact hk)]

/-- **What is rejected.** If an argument or setting violates the documented conditions, the code returned is an error, the
solver is not run and nothing is changed, except that `A` passes unchecked when a `B` is given. -/
theorem gesolve_rejects {s : LSolver D} (hs : s.ESized)
    (h : ¬ EValid { A with chk := if B.isSome then .success else A.chk } B xn (s.eview.opt .esolver) (s.eview.opt .ss)
      (s.eview.opt .mode)) :
    Ok (gesolve exec ones jR jS jI A B xn x s) fun r => r.ret ≠ .success ∧ r.run = none ∧
      (r.retcode = s.retcode ∨ r.retcode = r.ret) := by
  rw [← gesolveCheck_iff] at h
  unfold gesolve
  simp only [ESized.rd hs (by decide : 0 < 13), ESized.rd hs (by decide : 1 < 13), ESized.rd hs (by decide : 2 < 13),
    ESized.rd hs (by decide : 3 < 13), ESized.rd hs (by decide : 5 < 13), Option.bind_eq_bind, Option.bind_some]
  change ¬ (gesolveCheck A B xn (s.options.get 0) (s.options.get 2) (s.options.get 3) = .success ∧
    echeckParams (s.options.get 0) (s.options.get 2) = .success) at h
  by_cases h1 : gesolveCheck A B xn (s.options.get 0) (s.options.get 2) (s.options.get 3) = .success
  · rw [if_neg (by simpa using h1), if_pos fun h2 => h ⟨h1, h2⟩]
    exact ⟨_, rfl, fun h2 => h ⟨h1, h2⟩, rfl, .inr rfl⟩
  · rw [if_pos h1]
    exact ⟨_, rfl, h1, rfl, .inl rfl⟩

/-- **`lis_esolve`, `lis_gesolve`.** If the arguments and settings are valid, `1 ≤ ss`, `0 ≤ mode ≤ ss+1` and
`-1 ≤ emaxiter`, the solver chosen is run once, from the vector of ones or the caller's vector as chosen; **the function
returns `LIS_SUCCESS` whatever the solver's code is**; that code is the status; the caller gets the solver's vector and its
first eigenvalue. -/
theorem gesolve_spec (hx : KeepsSizes exec) {s : LSolver D} (hs : s.ESized)
    (h : EValid { A with chk := if B.isSome then .success else A.chk } B xn (s.eview.opt .esolver) (s.eview.opt .ss)
      (s.eview.opt .mode)) (hss : 1 ≤ s.eview.opt .ss) (hm0 : 0 ≤ s.eview.opt .mode)
    (hm : s.eview.opt .mode ≤ s.eview.opt .ss + 1) (hmax : -1 ≤ s.eview.opt .emaxiter) :
    Ok (gesolve exec ones jR jS jI A B xn x s) fun r => ∃ a e y b, exec (s.eview.opt .esolver)
        (if s.eview.opt .initOnes ≠ 0 then ones else x) a = some (e, y, b) ∧
      (a.evalue.size : Int) = s.eview.opt .ss + 2 ∧ (a.iter.size : Int) = s.eview.opt .ss + 2 ∧
      (a.resid.size : Int) = s.eview.opt .ss + 2 ∧ (a.rhistory.size : Int) = s.eview.opt .emaxiter + 2 ∧
      a.evalue.get 0 = 1 ∧ a.rhistory.get 0 = 1 ∧
      r.ret = .success ∧ r.retcode = e ∧ ∃ c, r.run = some (c, b.evalue.get 0, y) ∧
      c.evalue = b.evalue ∧ c.resid = b.resid ∧ c.iter = b.iter ∧ c.rhistory = b.rhistory := by
  rw [← gesolveCheck_iff] at h
  obtain ⟨h1, h2⟩ := h
  unfold gesolve
  simp only [ESized.rd hs (by decide : 0 < 13), ESized.rd hs (by decide : 1 < 13), ESized.rd hs (by decide : 2 < 13),
    ESized.rd hs (by decide : 3 < 13), ESized.rd hs (by decide : 5 < 13), Option.bind_eq_bind, Option.bind_some]
  change 1 ≤ s.options.get 2 at hss
  change 0 ≤ s.options.get 3 at hm0
  change s.options.get 3 ≤ s.options.get 2 + 1 at hm
  change -1 ≤ s.options.get 1 at hmax
  change gesolveCheck A B xn (s.options.get 0) (s.options.get 2) (s.options.get 3) = .success at h1
  change echeckParams (s.options.get 0) (s.options.get 2) = .success at h2
  rw [if_neg (by simpa using h1), if_neg (by simpa using h2), if_neg (by omega)]
  obtain ⟨n, hn⟩ : ∃ n : ℕ, n = (s.options.get 2 + 2).toNat := ⟨_, rfl⟩
  obtain ⟨m, hmm⟩ : ∃ m : ℕ, m = (s.options.get 1 + 2).toNat := ⟨_, rfl⟩
  rw [← hn, ← hmm]
  rw [Arr.wrI, if_pos le_rfl, Arr.wr, if_pos (by simp [Arr.malloc]; omega), Option.bind_some,
    Arr.wrI, if_pos (by omega), Arr.wr, if_pos (by simp [Arr.malloc]; omega), Option.bind_some, if_neg (by omega),
    Arr.wrI, if_pos le_rfl, Arr.wr, if_pos (by simp [Arr.malloc]; omega), Option.bind_some]
  obtain ⟨a, ha⟩ : ∃ a : EArrs R S, a = ⟨((Arr.malloc n jR).set (0 : Int).toNat 1).set (s.options.get 2 - 1).toNat 1,
    Arr.malloc n jS, Arr.malloc n jI, Arr.malloc n jI, (Arr.malloc m jS).set (0 : Int).toNat 1⟩ := ⟨_, rfl⟩
  rw [← ha]
  obtain ⟨e, y, b, hb, z1, z2, z3, z4, z5⟩ := hx (s.options.get 0) (if s.options.get 5 ≠ 0 then ones else x) a
  have zn : a.evalue.size = n ∧ a.resid.size = n ∧ a.iter.size = n ∧ a.iter2.size = n ∧ a.rhistory.size = m := by
    rw [ha]; exact ⟨rfl, rfl, rfl, rfl, rfl⟩
  obtain ⟨n1, n2, n3, n4, n5⟩ := zn
  rw [hb, Option.bind_some]
  simp only
  rw [Arr.rdI, if_pos le_rfl, Arr.rd, if_pos (by rw [z1, n1]; simp; omega), Option.bind_some,
    Arr.rdI, if_pos hm0, Arr.rd, if_pos (by omega), Option.bind_some, Arr.wrI, if_pos hm0, Arr.wr, if_pos (by omega),
    Option.bind_some]
  refine ⟨_, rfl, a, e, y, b, hb, ?_, ?_, ?_, ?_, ?_, ?_, rfl, rfl, _, rfl, rfl, rfl, rfl, rfl⟩
  · rw [n1, hn]; show ((s.options.get 2 + 2).toNat : Int) = s.options.get 2 + 2; omega
  · rw [n3, hn]; show ((s.options.get 2 + 2).toNat : Int) = s.options.get 2 + 2; omega
  · rw [n2, hn]; show ((s.options.get 2 + 2).toNat : Int) = s.options.get 2 + 2; omega
  · rw [n5, hmm]; show ((s.options.get 1 + 2).toNat : Int) = s.options.get 1 + 2; omega
  · rw [ha]
    simp only
    by_cases h0 : (s.options.get 2 - 1).toNat = 0
    · rw [h0, Arr.set_get_self]
    · rw [Arr.set_get_ne _ _ (by omega)]
      exact Arr.set_get_self _ _ _
  · rw [ha]; exact Arr.set_get_self _ _ _

/-- **Finding.** Settings that pass all checks and make `lis_esolve` access memory outside its arrays: a subspace size of 0,
-1 or -2; for the solvers without subspace a mode that is negative or greater than `ss+1`; an iteration limit of -2. -/
theorem gesolve_oob (hx : KeepsSizes exec) {s : LSolver D} (hs : s.ESized)
    (h : EValid { A with chk := if B.isSome then .success else A.chk } B xn (s.eview.opt .esolver) (s.eview.opt .ss)
      (s.eview.opt .mode)) (hlo : -2 ≤ s.eview.opt .ss) (hlo' : -2 ≤ s.eview.opt .emaxiter)
    (hbad : s.eview.opt .ss ≤ 0 ∨ s.eview.opt .mode < 0 ∨ s.eview.opt .ss + 1 < s.eview.opt .mode ∨
      s.eview.opt .emaxiter = -2) :
    gesolve exec ones jR jS jI A B xn x s = none := by
  rw [← gesolveCheck_iff] at h
  obtain ⟨h1, h2⟩ := h
  unfold gesolve
  simp only [ESized.rd hs (by decide : 0 < 13), ESized.rd hs (by decide : 1 < 13), ESized.rd hs (by decide : 2 < 13),
    ESized.rd hs (by decide : 3 < 13), ESized.rd hs (by decide : 5 < 13), Option.bind_eq_bind, Option.bind_some]
  change -2 ≤ s.options.get 2 at hlo
  change -2 ≤ s.options.get 1 at hlo'
  change s.options.get 2 ≤ 0 ∨ s.options.get 3 < 0 ∨ s.options.get 2 + 1 < s.options.get 3 ∨ s.options.get 1 = -2 at hbad
  change gesolveCheck A B xn (s.options.get 0) (s.options.get 2) (s.options.get 3) = .success at h1
  change echeckParams (s.options.get 0) (s.options.get 2) = .success at h2
  rw [if_neg (by simpa using h1), if_neg (by simpa using h2), if_neg (by omega)]
  obtain ⟨n, hn⟩ : ∃ n : ℕ, n = (s.options.get 2 + 2).toNat := ⟨_, rfl⟩
  obtain ⟨m, hmm⟩ : ∃ m : ℕ, m = (s.options.get 1 + 2).toNat := ⟨_, rfl⟩
  rw [← hn, ← hmm]
  by_cases c1 : s.options.get 2 ≤ 0
  · by_cases c0 : n = 0
    · rw [Arr.wrI, if_pos le_rfl, Arr.wr, if_neg (by simp [Arr.malloc]; omega), Option.bind_none]
    · rw [Arr.wrI, if_pos le_rfl, Arr.wr, if_pos (by simp [Arr.malloc]; omega), Option.bind_some, Arr.wrI,
        if_neg (by omega), Option.bind_none]
  rw [Arr.wrI, if_pos le_rfl, Arr.wr, if_pos (by simp [Arr.malloc]; omega), Option.bind_some,
    Arr.wrI, if_pos (by omega), Arr.wr, if_pos (by simp [Arr.malloc]; omega), Option.bind_some, if_neg (by omega)]
  by_cases c2 : s.options.get 1 = -2
  · rw [Arr.wrI, if_pos le_rfl, Arr.wr, if_neg (by simp [Arr.malloc]; omega), Option.bind_none]
  rw [Arr.wrI, if_pos le_rfl, Arr.wr, if_pos (by simp [Arr.malloc]; omega), Option.bind_some]
  obtain ⟨a, ha⟩ : ∃ a : EArrs R S, a = ⟨((Arr.malloc n jR).set (0 : Int).toNat 1).set (s.options.get 2 - 1).toNat 1,
    Arr.malloc n jS, Arr.malloc n jI, Arr.malloc n jI, (Arr.malloc m jS).set (0 : Int).toNat 1⟩ := ⟨_, rfl⟩
  rw [← ha]
  obtain ⟨e, y, b, hb, z1, z2, z3, z4, z5⟩ := hx (s.options.get 0) (if s.options.get 5 ≠ 0 then ones else x) a
  have zn : a.evalue.size = n ∧ a.resid.size = n ∧ a.iter.size = n ∧ a.iter2.size = n ∧ a.rhistory.size = m := by
    rw [ha]; exact ⟨rfl, rfl, rfl, rfl, rfl⟩
  obtain ⟨n1, n2, n3, n4, n5⟩ := zn
  rw [hb, Option.bind_some]
  simp only
  rw [Arr.rdI, if_pos le_rfl, Arr.rd, if_pos (by rw [z1, n1]; simp; omega), Option.bind_some]
  by_cases c3 : s.options.get 3 < 0
  · rw [Arr.rdI, if_neg (by omega), Option.bind_none]
  · rw [Arr.rdI, if_pos (by omega), Arr.rd, if_neg (by omega), Option.bind_none]

/-- **Finding.** A subspace size below -2 (with a solver that has no subspace) or an iteration limit below -2 passes all
checks; `lis_malloc` then fails and `lis_esolve` **returns `LIS_SUCCESS` with status success without having run the solver**. -/
theorem gesolve_silent {s : LSolver D} (hs : s.ESized)
    (h : EValid { A with chk := if B.isSome then .success else A.chk } B xn (s.eview.opt .esolver) (s.eview.opt .ss)
      (s.eview.opt .mode))
    (hbad : s.eview.opt .ss < -2 ∨ 1 ≤ s.eview.opt .ss ∧ s.eview.opt .emaxiter < -2) :
    gesolve exec ones jR jS jI A B xn x s = some ⟨.success, .success, none⟩ := by
  rw [← gesolveCheck_iff] at h
  obtain ⟨h1, h2⟩ := h
  unfold gesolve
  simp only [ESized.rd hs (by decide : 0 < 13), ESized.rd hs (by decide : 1 < 13), ESized.rd hs (by decide : 2 < 13),
    ESized.rd hs (by decide : 3 < 13), ESized.rd hs (by decide : 5 < 13), Option.bind_eq_bind, Option.bind_some]
  change s.options.get 2 < -2 ∨ 1 ≤ s.options.get 2 ∧ s.options.get 1 < -2 at hbad
  change gesolveCheck A B xn (s.options.get 0) (s.options.get 2) (s.options.get 3) = .success at h1
  change echeckParams (s.options.get 0) (s.options.get 2) = .success at h2
  rw [if_neg (by simpa using h1), if_neg (by simpa using h2)]
  by_cases c : s.options.get 2 < -2
  · rw [if_pos (by omega)]; rfl
  rw [if_neg (by omega)]
  rw [Arr.wrI, if_pos le_rfl, Arr.wr, if_pos (by simp [Arr.malloc]; omega), Option.bind_some,
    Arr.wrI, if_pos (by omega), Arr.wr, if_pos (by simp [Arr.malloc]; omega), Option.bind_some, if_pos (by omega)]
  rfl

/-- **`lis_esolve`** is `lis_gesolve` without `B`; it also stores an error code as the status. -/
theorem esolve_spec (s : LSolver D) (r : GOut R S V) (h : gesolve exec ones jR jS jI A none xn x s = some r) :
    ∃ r', esolve exec ones jR jS jI A xn x s = some r' ∧ r'.ret = r.ret ∧ r'.run = r.run ∧
      (r.ret ≠ .success → r'.retcode = r.ret) ∧ (r.ret = .success → r'.retcode = r.retcode) := by
  unfold esolve
  rw [h]
  simp only [Option.bind_eq_bind, Option.bind_some]
  by_cases c : r.ret = .success
  · rw [if_neg (by simpa using c)]
    exact ⟨_, rfl, rfl, rfl, fun h => absurd c h, fun _ => rfl⟩
  · rw [if_pos c]
    exact ⟨_, rfl, rfl, rfl, fun _ => rfl, fun h => absurd h c⟩

/-- **`lis_esolver_get_rhistory`**: after a run of `k` iterations with a history array of more than `k` elements, the vector
gets the entries `0, …, k` (`k-1` after an unsuccessful run) as far as it is long enough, and keeps the rest. -/
theorem egetRhistory_spec {R S : Type} (rc : Err) (a : EArrs R S) (v : Arr S) (k : ℕ) (hi : 0 < a.iter.size)
    (hk : a.iter.get 0 = k) (hr : k < a.rhistory.size) :
    Ok (egetRhistory rc a v) fun w => w.size = v.size ∧ ∀ i, i < v.size →
      w.get i = if i < k ∨ (i = k ∧ rc = .success) then a.rhistory.get i else v.get i := by
  unfold egetRhistory
  rw [Arr.rd, if_pos hi, hk]
  simp only [Option.bind_eq_bind, Option.bind_some]
  obtain ⟨m, hm⟩ : ∃ m, m = (min (v.size : Int) (if rc ≠ .success then (k : Int) + 1 - 1 else k + 1)).toNat := ⟨_, rfl⟩
  rw [← hm]
  have hmv : m ≤ v.size := by rw [hm]; split <;> omega
  have hmr : m ≤ a.rhistory.size := by rw [hm]; split <;> omega
  refine Ok_loop_le (fun j w => w.size = v.size ∧ ∀ i, w.get i = if i < j then a.rhistory.get i else v.get i)
    (Nat.zero_le m) ⟨rfl, fun i => by simp⟩ ?_ ?_
  · rintro i w - him ⟨hw, hg⟩
    rw [Arr.rd, if_pos (by omega), Option.bind_some, Ok_wr]
    refine ⟨by omega, hw, fun j => ?_⟩
    by_cases hj : j = i
    · subst hj; simp
    · rw [Arr.set_get_ne _ _ hj, hg]
      by_cases c : j < i
      · rw [if_pos c, if_pos (by omega)]
      · rw [if_neg c, if_neg (by omega)]
  · rintro w ⟨hw, hg⟩
    refine ⟨hw, fun i hi => ?_⟩
    rw [hg]
    by_cases c : rc = .success
    · rw [if_neg (by simpa using c)] at hm
      by_cases d : i ≤ k
      · rw [if_pos (by omega), if_pos (by rcases Nat.lt_or_eq_of_le d with h | h <;> simp [c, h])]
      · rw [if_neg (by omega), if_neg (by omega)]
    · rw [if_pos c] at hm
      by_cases d : i < k
      · rw [if_pos (by omega), if_pos (.inl d)]
      · rw [if_neg (by omega), if_neg (by rintro (h | h); exacts [d h, c h.2])]

/-! ### reachable from option strings -/

/-- the settings after a text, starting from a new handle -/
def eopts (text : String) : Option (LSolver ℚ) :=
  (esetOptionArgs (fun _ => none) 0 (optionPairs text.toList) (esolverInit id .success 0)).bind fun r =>
    if r.1 = .success then some r.2 else none

theorem eopts_of (text : String)
    (h : (esetPairs (fun _ => none) (0 : ℚ) (optionPairs text.toList) (edocDefault id)).1 = true) :
    ∃ s, eopts text = some s ∧ s.ESized ∧
      s.eview = (esetPairs (fun _ => none) 0 (optionPairs text.toList) (edocDefault id)).2 := by
  obtain ⟨hz, hv⟩ := esolverInit_spec (D := ℚ) id .success 0
  obtain ⟨e, s, h1, h2, h3, h4, -⟩ := esetOptionArgs_spec (D := ℚ) (fun _ => none) 0 (optionPairs text.toList) hz
  rw [hv] at h3 h4
  obtain ⟨rfl, -⟩ := h4 h
  exact ⟨s, by simp [eopts, h1], h2, h3⟩

/-- a solver that reports success after one iteration -/
def demoExec : Int → ℚ → EArrs ℚ ℚ → Option (Err × ℚ × EArrs ℚ ℚ) :=
  fun _ x a => some (.success, x, { a with iter := ⟨a.iter.size, fun _ => 1⟩ })

theorem demoExec_keeps : KeepsSizes demoExec := fun _ _ _ => ⟨_, _, _, rfl, rfl, rfl, rfl, rfl, rfl⟩

/-- **Finding.** `-e pi -m 3` on a matrix of order 5: accepted, and memory outside the arrays is accessed. -/
theorem mode_oob : ∃ s, eopts "-e pi -m 3" = some s ∧
    gesolve demoExec 1 (fun _ => 0) (fun _ => 0) (fun _ => 0) ⟨.success, 5, 5⟩ none 5 0 s = none := by
  obtain ⟨s, h1, h2, h3⟩ := eopts_of "-e pi -m 3" (by decide +kernel)
  have e : (s.eview.opt .esolver, s.eview.opt .ss, s.eview.opt .mode, s.eview.opt .emaxiter) = (1, 1, 3, 1000) := by
    rw [h3]; decide +kernel
  simp only [Prod.mk.injEq] at e
  obtain ⟨e1, e2, e3, e4⟩ := e
  refine ⟨s, h1, gesolve_oob demoExec 1 _ _ _ _ none 5 0 demoExec_keeps h2 ?_ (by omega) (by omega) (by omega)⟩
  rw [e1, e2, e3]
  exact ⟨rfl, by simp, rfl, by simp, by decide, by simp, by decide, by decide, by decide⟩

/-- **Finding.** `-e pi -ss -5`: the call reports success and has computed nothing. -/
theorem negative_ss_silent : ∃ s, eopts "-e pi -ss -5" = some s ∧
    gesolve demoExec 1 (fun _ => 0) (fun _ => 0) (fun _ => 0) ⟨.success, 5, 5⟩ none 5 0 s =
      some ⟨.success, .success, none⟩ := by
  obtain ⟨s, h1, h2, h3⟩ := eopts_of "-e pi -ss -5" (by decide +kernel)
  have e : (s.eview.opt .esolver, s.eview.opt .ss, s.eview.opt .mode, s.eview.opt .emaxiter) = (1, -5, 0, 1000) := by
    rw [h3]; decide +kernel
  simp only [Prod.mk.injEq] at e
  obtain ⟨e1, e2, e3, e4⟩ := e
  refine ⟨s, h1, gesolve_silent demoExec 1 _ _ _ _ none 5 0 h2 ?_ (by omega)⟩
  rw [e1, e2, e3]
  exact ⟨rfl, by simp, rfl, by simp, by decide, by simp, by decide, by decide, by decide⟩

/-- **Finding.** A matrix `A` that fails its check is accepted by `lis_gesolve` if `B` passes. -/
theorem gesolve_A_unchecked : ∃ s, eopts "-e gpi" = some s ∧
    Ok (gesolve demoExec 1 (fun _ => 0) (fun _ => 0) (fun _ => 0) ⟨.illArg, 5, 5⟩ (some ⟨.success, 5, 5⟩) 5 0 s)
      fun r => r.ret = .success ∧ r.run.isSome := by
  obtain ⟨s, h1, h2, h3⟩ := eopts_of "-e gpi" (by decide +kernel)
  have e : (s.eview.opt .esolver, s.eview.opt .ss, s.eview.opt .mode, s.eview.opt .emaxiter) = (9, 1, 0, 1000) := by
    rw [h3]; decide +kernel
  simp only [Prod.mk.injEq] at e
  obtain ⟨e1, e2, e3, e4⟩ := e
  refine ⟨s, h1, (gesolve_spec demoExec 1 _ _ _ _ (some ⟨.success, 5, 5⟩) 5 0 demoExec_keeps h2 ?_ (by omega) (by omega)
    (by omega) (by omega)).mono ?_⟩
  · rw [e1, e2, e3]
    exact ⟨rfl, by rintro b hb; cases hb; rfl, rfl, by rintro b hb; cases hb; rfl, by decide,
      by rintro b hb; cases hb; decide, by decide, by decide, by decide⟩
  · rintro r ⟨a, e, y, b, -, -, -, -, -, -, -, h, -, c, hc, -⟩
    exact ⟨h, by rw [hc]; rfl⟩

/-- the default settings meet the hypotheses of `gesolve_spec`; `-e li -ss 3 -m 5` those of `gesolve_rejects` -/
example : ∃ s, eopts "" = some s ∧ Ok (gesolve demoExec 1 (fun _ => 0) (fun _ => 0) (fun _ => 0) ⟨.success, 5, 5⟩ none 5 0 s)
    fun r => r.ret = .success ∧ r.retcode = .success := by
  obtain ⟨s, h1, h2, h3⟩ := eopts_of "" (by decide +kernel)
  have e : (s.eview.opt .esolver, s.eview.opt .ss, s.eview.opt .mode, s.eview.opt .emaxiter) = (5, 1, 0, 1000) := by
    rw [h3]; decide +kernel
  simp only [Prod.mk.injEq] at e
  obtain ⟨e1, e2, e3, e4⟩ := e
  refine ⟨s, h1, (gesolve_spec demoExec 1 _ _ _ _ none 5 0 demoExec_keeps h2 ?_ (by omega) (by omega)
    (by omega) (by omega)).mono ?_⟩
  · rw [e1, e2, e3]
    exact ⟨rfl, by simp, rfl, by simp, by decide, by simp, by decide, by decide, by decide⟩
  · rintro r ⟨a, e, y, b, hb, -, -, -, -, -, -, h, he, -⟩
    refine ⟨h, he.trans ?_⟩
    simp only [demoExec, Option.some.injEq, Prod.mk.injEq] at hb
    exact hb.1.symm

example : ∃ s, eopts "-e li -ss 3 -m 5" = some s ∧
    Ok (gesolve demoExec 1 (fun _ => 0) (fun _ => 0) (fun _ => 0) ⟨.success, 5, 5⟩ none 5 0 s) fun r => r.ret ≠ .success := by
  obtain ⟨s, h1, h2, h3⟩ := eopts_of "-e li -ss 3 -m 5" (by decide +kernel)
  have e : (s.eview.opt .esolver, s.eview.opt .ss, s.eview.opt .mode) = (7, 3, 5) := by
    rw [h3]; decide +kernel
  simp only [Prod.mk.injEq] at e
  obtain ⟨e1, e2, e3⟩ := e
  refine ⟨s, h1, (gesolve_rejects demoExec 1 _ _ _ _ none 5 0 h2 ?_).mono fun r h => h.1⟩
  rw [e1, e2, e3]
  intro h
  have := (h.sub (by decide)).2.2
  omega

end Lis
