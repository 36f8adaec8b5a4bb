import Verif.Lemmas.Ilu

/-! Symbolic factorization of ILU(p): fill, pivots, rows -/

namespace Lis
open Finset
variable {R : Type}

/-- a finished row of the pattern -/
structure PatRow (S : ℕ → ℕ → Prop) (levfill n : ℕ) (P : IluPat) (k : ℕ) : Prop where
  szL : (P.idxL k).size = P.nnzL.get k
  szU : (P.idxU k).size = P.nnzU.get k
  szV : (P.ulvl k).size = P.nnzU.get k
  sorted : ∀ p q, p < q → q < P.nnzL.get k → (P.idxL k).get p < (P.idxL k).get q
  low : ∀ p, p < P.nnzL.get k → (P.idxL k).get p < k
  up : ∀ p, p < P.nnzU.get k → k < (P.idxU k).get p ∧ (P.idxU k).get p < n
  injU : ∀ p q, p < P.nnzU.get k → q < P.nnzU.get k → (P.idxU k).get p = (P.idxU k).get q → p = q
  soundL : ∀ p, p < P.nnzL.get k → IluPattern S levfill k ((P.idxL k).get p)
  soundU : ∀ p, p < P.nnzU.get k → FillLevel S k ((P.idxU k).get p) ((P.ulvl k).get p) ∧ (P.ulvl k).get p ≤ levfill
  compL : ∀ j l, j < k → l ≤ levfill → FillLevel S k j l → ∃ p, p < P.nnzL.get k ∧ (P.idxL k).get p = j
  compU : ∀ j l, k < j → l ≤ levfill → FillLevel S k j l →
    ∃ p, p < P.nnzU.get k ∧ (P.idxU k).get p = j ∧ (P.ulvl k).get p ≤ l

theorem SymInv.lv_none {s : SymW} {c : ℕ} (h : s.iw.get c = none) : s.lv c = none := by
  simp [SymW.lv, h]

/-- effect of one fill candidate with level `it` for column `col` -/
structure Filled1 (n i levfill col it : ℕ) (s s' : SymW) : Prop where
  inv : SymInv n i s'
  incl : s.incl ≤ s'.incl
  jold : ∀ p, p < s.incl → s'.jbuf.get p = s.jbuf.get p
  jnew : ∀ p, s.incl ≤ p → p < s'.incl → s'.jbuf.get p = col
  other : ∀ c, c < n → c ≠ col → s'.lv c = s.lv c
  here : s'.lv col = s.lv col ∨ (it ≤ levfill ∧ s'.lv col = some it)
  mono : ∀ l, s.lv col = some l → ∃ l', l' ≤ l ∧ s'.lv col = some l'
  done : it ≤ levfill → col ≠ i → ∃ l, l ≤ it ∧ s'.lv col = some l

theorem symFill1_spec {S : ℕ → ℕ → Prop} {levfill n i jpiv k j : ℕ} {P : IluPat} {s : SymW} (h : SymInv n i s) (hi : i < n)
    (hP : PatRow S levfill n P k) (hj : j < P.nnzU.get k) (hpv : jpiv < s.incl) :
    Ok (symFill1 levfill i jpiv P k j s)
      (Filled1 n i levfill ((P.idxU k).get j) ((P.ulvl k).get j + s.levls.get jpiv + 1) s) := by
  have j2 := h.lsz
  have j3 := h.isz
  have hle := h.incl_le
  have hcol := (hP.up j hj).2
  set col := (P.idxU k).get j with hcoldef
  have z1 := hP.szU
  have z2 := hP.szV
  unfold symFill1
  simp only [Ok_bind, Ok_rd]
  refine ⟨by omega, by omega, by omega, ?_⟩
  rw [Ok_ite]
  refine ⟨fun hl => ?_, fun hl => ?_⟩
  · rw [Ok_pure]
    exact ⟨h, le_refl _, fun _ _ => rfl, fun p p1 p2 => by omega, fun _ _ _ => rfl, .inl rfl, fun l hl => ⟨l, le_refl _, hl⟩,
      fun h => by omega⟩
  · rw [Ok_bind, Ok_rd]
    refine ⟨by omega, ?_⟩
    rw [← hcoldef]
    cases e : s.iw.get col with
    | none =>
      refine (symPush_spec h hi hcol e).mono fun s' hs' => ?_
      refine ⟨hs'.inv, hs'.incl, hs'.jold, hs'.jnew, fun c hc hne => ?_, ?_, fun l hl => ?_, fun _ hne => ?_⟩
      · rw [hs'.lv c hc, if_neg (by tauto)]
      · rw [hs'.lv col hcol]
        split_ifs
        · exact .inr ⟨by omega, rfl⟩
        · exact .inl rfl
      · rw [SymInv.lv_none e] at hl; cases hl
      · exact ⟨_, le_refl _, by rw [hs'.lv col hcol, if_pos ⟨rfl, hne⟩]⟩
    | some ip =>
      obtain ⟨b1, b2⟩ := h.bwd col ip hcol e
      have hip : ip < n := by
        have := h.incu_le hi
        rcases b1 with a | a <;> omega
      simp only [Ok_bind, Ok_rd, Ok_wr]
      rw [Ok_pure]
      refine ⟨by omega, by omega, ?_⟩
      have hlc : s.lv col = some (s.levls.get ip) := by simp [SymW.lv, e]
      have hnew : SymW.lv { s with levls := s.levls.set ip (min (s.levls.get ip)
          ((P.ulvl k).get j + s.levls.get jpiv + 1)) } col =
          some (min (s.levls.get ip) ((P.ulvl k).get j + s.levls.get jpiv + 1)) := by
        simp [SymW.lv, e]
      refine ⟨⟨h.jsz, j2, j3, h.hu, h.fwd, h.bwd, h.low, h.up⟩, le_refl _, fun _ _ => rfl, fun p p1 p2 => ?_,
        fun c hc hne => ?_, ?_, fun l hl => ?_, fun _ hne => ?_⟩
      · dsimp only at p2; omega
      · unfold SymW.lv
        dsimp only
        cases e2 : s.iw.get c with
        | none => rfl
        | some q =>
          rw [Option.map_some, Option.map_some, Arr.set_get_ne]
          intro e3
          subst e3
          exact hne ((h.bwd c q hc e2).2.symm.trans b2)
      · rw [hnew, hlc]
        rcases Nat.le_total (s.levls.get ip) ((P.ulvl k).get j + s.levls.get jpiv + 1) with a | a
        · left; rw [min_eq_left a]
        · right; rw [min_eq_right a]; exact ⟨by omega, rfl⟩
      · rw [hlc] at hl
        cases hl
        exact ⟨_, min_le_left _ _, hnew⟩
      · exact ⟨_, min_le_right _ _, hnew⟩

/-- while processing row `i`: the first `jpiv` columns of `L` are done -/
structure PivInv (S : ℕ → ℕ → Prop) (levfill n i : ℕ) (P : IluPat) (jpiv : ℕ) (s : SymW) : Prop where
  inv : SymInv n i s
  le : jpiv ≤ s.incl
  ord : ∀ p q, p < q → q < s.incl → p < jpiv → s.jbuf.get p < s.jbuf.get q
  sound : ∀ c l, c < n → s.lv c = some l → FillLevel S i c l ∧ l ≤ levfill
  stored : ∀ c, c < n → S i c → c ≠ i → s.lv c = some 0
  done : ∀ p t a, p < jpiv → t < P.nnzU.get (s.jbuf.get p) → s.lv (s.jbuf.get p) = some a →
    (P.ulvl (s.jbuf.get p)).get t + a + 1 ≤ levfill → (P.idxU (s.jbuf.get p)).get t ≠ i →
    ∃ l, l ≤ (P.ulvl (s.jbuf.get p)).get t + a + 1 ∧ s.lv ((P.idxU (s.jbuf.get p)).get t) = some l

theorem symPivot_spec {S : ℕ → ℕ → Prop} {levfill n i jpiv : ℕ} {P : IluPat} {s : SymW} (hi : i < n)
    (hP : ∀ k, k < i → PatRow S levfill n P k) (hsz : P.nnzU.size = n) (h : PivInv S levfill n i P jpiv s)
    (hpv : jpiv < s.incl) :
    Ok (symPivot levfill i jpiv P s) (PivInv S levfill n i P (jpiv + 1)) := by
  unfold symPivot
  rw [Ok_bind]
  refine (symMin_spec h.inv hi hpv).mono ?_
  rintro p ⟨m1, m2, m3, m4⟩
  rw [Ok_bind]
  refine (symSwap_spec h.inv hi m1 m2 m3).mono ?_
  intro s1 w
  have hk : p.1 < i := by rw [← m3]; exact h.inv.low _ m2
  have hPk := hP p.1 hk
  have hin1 : s1.In i jpiv := .inl (by rw [w.incl]; exact hpv)
  rw [Ok_bind, Ok_rd]
  refine ⟨by omega, ?_⟩
  have hl0 : s1.lv p.1 = some (s1.levls.get jpiv) := by
    rw [← w.piv]; exact w.inv.lv_fwd hin1
  have afterk : ∀ q, jpiv < q → q < s1.incl → p.1 < s1.jbuf.get q := by
    intro q q1 q2
    rw [w.incl] at q2
    obtain ⟨q', r1, r2, r3⟩ := w.after q (by omega) q2
    have := m4 q' r1 r2
    rcases Nat.lt_or_ge p.1 (s1.jbuf.get q) with a | a
    · exact a
    · exfalso
      have e : s1.jbuf.get q = s1.jbuf.get jpiv := by rw [w.piv]; omega
      have := w.inv.inj (.inl (by rw [w.incl]; omega)) hin1 e
      omega
  have hle1 : jpiv < s1.incl := by rw [w.incl]; exact hpv
  have beforek : ∀ q, q < jpiv → s1.jbuf.get q < p.1 := by
    intro q hq
    rw [w.before q hq, ← m3]
    exact h.ord q p.2 (by omega) m2 hq
  refine Ok_loop_le (fun t s' => SymInv n i s' ∧ s1.incl ≤ s'.incl ∧ (∀ q, q < s1.incl → s'.jbuf.get q = s1.jbuf.get q) ∧
    (∀ q, s1.incl ≤ q → q < s'.incl → p.1 < s'.jbuf.get q) ∧
    (∀ c l, c < n → s'.lv c = some l → FillLevel S i c l ∧ l ≤ levfill) ∧
    (∀ c l, c < n → s1.lv c = some l → ∃ l', l' ≤ l ∧ s'.lv c = some l') ∧
    (∀ c, c ≤ p.1 → s'.lv c = s1.lv c) ∧
    (∀ t', t' < t → (P.ulvl p.1).get t' + s1.levls.get jpiv + 1 ≤ levfill → (P.idxU p.1).get t' ≠ i →
      ∃ l, l ≤ (P.ulvl p.1).get t' + s1.levls.get jpiv + 1 ∧ s'.lv ((P.idxU p.1).get t') = some l))
    (Nat.zero_le _) ?_ ?_ ?_
  · refine ⟨w.inv, le_refl _, fun _ _ => rfl, fun q q1 q2 => by omega, fun c l hc hl => ?_, fun c l _ hl => ⟨l, le_refl _, hl⟩,
      fun _ _ => rfl, fun t' ht => by omega⟩
    rw [w.lv c hc] at hl
    exact h.sound c l hc hl
  · rintro t s' - ht ⟨a1, a2, a3, a4, a5, a6, a7, a8⟩
    have hlev : s'.levls.get jpiv = s1.levls.get jpiv := by
      have e1 := a7 p.1 (le_refl _)
      rw [hl0] at e1
      have e2 := a1.lv_fwd (p := jpiv) (.inl (by omega))
      rw [a3 jpiv hle1, w.piv, e1] at e2
      exact (Option.some.inj e2).symm
    refine (symFill1_spec a1 hi hPk ht (by omega)).mono ?_
    rw [hlev]
    intro s2 f
    have hup := hPk.up t ht
    refine ⟨f.inv, a2.trans f.incl, fun q hq => ?_, fun q q1 q2 => ?_, fun c l hc hl => ?_, fun c l hc hl => ?_,
      fun c hc => ?_, fun t' ht' hlev' hne => ?_⟩
    · rw [f.jold q (by omega), a3 q hq]
    · by_cases e : q < s'.incl
      · rw [f.jold q e]; exact a4 q q1 e
      · rw [f.jnew q (by omega) q2]; exact hup.1
    · by_cases e : c = (P.idxU p.1).get t
      · subst e
        rcases f.here with g | ⟨g1, g2⟩
        · rw [g] at hl; exact a5 _ l hc hl
        · rw [g2] at hl
          cases hl
          refine ⟨?_, g1⟩
          have b1 := (a5 p.1 (s1.levls.get jpiv) (by omega) (by rw [a7 _ (le_refl _), hl0])).1
          have b2 := (hPk.soundU t ht).1
          have := FillLevel.fill hk hup.1 b1 b2
          rwa [Nat.add_comm (s1.levls.get jpiv)] at this
      · rw [f.other c hc e] at hl
        exact a5 c l hc hl
    · obtain ⟨l1, g1, g2⟩ := a6 c l hc hl
      by_cases e : c = (P.idxU p.1).get t
      · subst e
        obtain ⟨l2, g3, g4⟩ := f.mono l1 g2
        exact ⟨l2, by omega, g4⟩
      · exact ⟨l1, g1, by rw [f.other c hc e]; exact g2⟩
    · rw [f.other c (by omega) (by omega)]
      exact a7 c hc
    · by_cases e : t' = t
      · subst e
        exact f.done hlev' hne
      · obtain ⟨l1, g1, g2⟩ := a8 t' (by omega) hlev' hne
        by_cases e2 : (P.idxU p.1).get t' = (P.idxU p.1).get t
        · rw [e2] at g2 ⊢
          obtain ⟨l2, g3, g4⟩ := f.mono l1 g2
          exact ⟨l2, by omega, g4⟩
        · exact ⟨l1, g1, by rw [f.other _ (hPk.up t' (by omega)).2 e2]; exact g2⟩
  · rintro s' ⟨a1, a2, a3, a4, a5, a6, a7, a8⟩
    refine ⟨a1, by omega, fun q r q1 r1 q2 => ?_, a5, fun c hc hS hne => ?_, fun q t a q1 t1 ha hlev hne => ?_⟩
    · have hqj : q < s1.incl := by omega
      rw [a3 q hqj]
      by_cases e : q = jpiv
      · subst e
        rw [w.piv]
        by_cases e2 : r < s1.incl
        · rw [a3 r e2]; exact afterk r q1 e2
        · exact a4 r (by omega) r1
      · have hb := beforek q (by omega)
        by_cases e2 : r < s1.incl
        · rw [a3 r e2]
          by_cases e3 : r < jpiv
          · rw [w.before q (by omega), w.before r e3]
            exact h.ord q r q1 (by omega) (by omega)
          · by_cases e4 : r = jpiv
            · subst e4; rw [w.piv]; exact hb
            · have := afterk r (by omega) e2; omega
        · have := a4 r (by omega) r1; omega
    · obtain ⟨l', g1, g2⟩ := a6 c 0 hc (by rw [w.lv c hc]; exact h.stored c hc hS hne)
      have : l' = 0 := by omega
      subst this; exact g2
    · have hqj : q < s1.incl := by omega
      rw [a3 q hqj] at t1 ha hlev hne ⊢
      by_cases e : q = jpiv
      · subst e
        rw [w.piv] at t1 ha hlev hne ⊢
        rw [a7 _ (le_refl _), hl0] at ha
        cases ha
        exact a8 t t1 hlev hne
      · have hb := beforek q (by omega)
        have hcn : s1.jbuf.get q < n := by omega
        rw [a7 _ (by omega), w.lv _ hcn] at ha
        rw [w.before q (by omega)] at t1 ha hlev hne ⊢
        obtain ⟨l, g1, g2⟩ := h.done q t a (by omega) t1 ha hlev hne
        have hPq := hP (s.jbuf.get q) (h.inv.low q (by rw [w.incl] at hqj; omega))
        have hcn2 := (hPq.up t t1).2
        obtain ⟨l', g3, g4⟩ := a6 _ l hcn2 (by rw [w.lv _ hcn2]; exact g2)
        exact ⟨l', by omega, g4⟩

theorem symPivots_spec {S : ℕ → ℕ → Prop} {levfill n i : ℕ} {P : IluPat} {s : SymW} (hi : i < n)
    (hP : ∀ k, k < i → PatRow S levfill n P k) (hsz : P.nnzU.size = n) (h : PivInv S levfill n i P 0 s) :
    Ok (whileL (fun q : ℕ × SymW => some (decide (q.1 < q.2.incl)))
      (fun q => (symPivot levfill i q.1 P q.2).map fun s => (q.1 + 1, s)) (0, s)) fun r =>
      PivInv S levfill n i P r.2.incl r.2 := by
  refine Ok_while (fun q => PivInv S levfill n i P q.1 q.2) (fun q => i - q.1) h ?_
  rintro ⟨j, s⟩ hq
  rw [Ok_some]
  dsimp only at hq ⊢
  by_cases e : j < s.incl
  · rw [if_pos (by simpa using e)]
    obtain ⟨s', hs', hq'⟩ := symPivot_spec hi hP hsz hq e
    rw [hs']
    refine ⟨_, rfl, hq', ?_⟩
    have := hq.inv.incl_le
    dsimp only
    omega
  · rw [if_neg (by simpa using e)]
    have : s.incl = j := by have := hq.le; omega
    rw [this]; exact hq

/-- the recorded levels are complete -/
theorem PivInv.complete {S : ℕ → ℕ → Prop} {levfill n i : ℕ} {P : IluPat} {s : SymW} (hi : i < n)
    (hSn : ∀ a b, S a b → b < n)
    (hP : ∀ k, k < i → PatRow S levfill n P k) (h : PivInv S levfill n i P s.incl s) {j l : ℕ}
    (hf : FillLevel S i j l) (hl : l ≤ levfill) (hne : j ≠ i) : ∃ l', l' ≤ l ∧ s.lv j = some l' := by
  suffices H : ∀ r j l, FillLevel S r j l → r = i → l ≤ levfill → j ≠ i → ∃ l', l' ≤ l ∧ s.lv j = some l' from
    H i j l hf rfl hl hne
  intro r j l hf
  induction hf with
  | @stored r j hS =>
    rintro rfl _ hne
    exact ⟨0, le_refl _, h.stored j (hSn _ _ hS) hS hne⟩
  | @fill r j k a b k1 k2 f1 f2 ih1 ih2 =>
    rintro rfl hl hne
    obtain ⟨a', g1, g2⟩ := ih1 rfl (by omega) (by omega)
    have hkin : ∃ p, p < s.incl ∧ s.jbuf.get p = k := by
      unfold SymW.lv at g2
      cases e : s.iw.get k with
      | none => rw [e] at g2; cases g2
      | some p =>
        obtain ⟨b1, b2⟩ := h.inv.bwd k p (by omega) e
        rcases b1 with c | c
        · exact ⟨p, c, b2⟩
        · have := h.inv.up p c.1 c.2; omega
    obtain ⟨p, p1, p2⟩ := hkin
    obtain ⟨t, t1, t2, t3⟩ := (hP k k1).compU j b k2 (by omega) f2
    have := h.done p t a' p1 (by rw [p2]; exact t1) (by rw [p2]; exact g2) (by rw [p2]; omega) (by rw [p2, t2]; exact hne)
    rw [p2, t2] at this
    obtain ⟨l', g3, g4⟩ := this
    exact ⟨l', by omega, g4⟩

open Classical in
theorem symReset_spec {n lo hi : ℕ} {jbuf : Arr ℕ} {iw : Arr (Option ℕ)} (h1 : hi ≤ jbuf.size) (h2 : iw.size = n)
    (h3 : ∀ p, lo ≤ p → p < hi → jbuf.get p < n) (hlo : lo ≤ hi) :
    Ok (symReset lo hi jbuf iw) fun w => w.size = n ∧
      ∀ c, w.get c = if ∃ p, lo ≤ p ∧ p < hi ∧ jbuf.get p = c then none else iw.get c := by
  unfold symReset
  refine Ok_loop_le (fun j w => w.size = n ∧
      ∀ c, w.get c = if ∃ p, lo ≤ p ∧ p < j ∧ jbuf.get p = c then none else iw.get c) hlo ?_ ?_ ?_
  · exact ⟨h2, fun c => by rw [if_neg]; rintro ⟨p, p1, p2, -⟩; omega⟩
  · rintro j w j1 j2 ⟨a, b⟩
    simp only [Ok_bind, Ok_rd, Ok_wr]
    have := h3 j j1 j2
    refine ⟨by omega, by omega, a, fun c => ?_⟩
    rw [Arr.set_get]
    by_cases e : c = jbuf.get j
    · rw [if_pos e, if_pos ⟨j, j1, by omega, e.symm⟩]
    · rw [if_neg e, b c]
      refine if_congr ?_ rfl rfl
      constructor
      · rintro ⟨p, p1, p2, p3⟩; exact ⟨p, p1, by omega, p3⟩
      · rintro ⟨p, p1, p2, p3⟩
        refine ⟨p, p1, ?_, p3⟩
        by_contra hh
        have : p = j := by omega
        subst this; exact e p3.symm
  · intro w hw; exact hw

theorem symCopy_spec {junk : ℕ → ℕ} {off k : ℕ} {src : Arr ℕ} (h : off + k ≤ src.size) :
    Ok (symCopy junk off k src) fun d => d.size = k ∧ ∀ j, j < k → d.get j = src.get (off + j) := by
  unfold symCopy
  refine Ok_loop_le (fun m d => d.size = k ∧ ∀ j, j < m → d.get j = src.get (off + j)) (Nat.zero_le _)
    ⟨rfl, fun j hj => absurd hj (by omega)⟩ ?_ fun d h => h
  rintro m d - m2 ⟨a, b⟩
  simp only [Ok_bind, Ok_rd, Ok_wr]
  refine ⟨by omega, by omega, a, fun j hj => ?_⟩
  rw [Arr.set_get]
  split_ifs with e
  · rw [e]
  · exact b j (by omega)

/-- state between rows -/
structure RowsInv (S : ℕ → ℕ → Prop) (levfill n i : ℕ) (st : IluPat × SymW) : Prop where
  szL : st.1.nnzL.size = n
  szU : st.1.nnzU.size = n
  clear : st.2.Clear n
  rows : ∀ k, k < i → PatRow S levfill n st.1 k

theorem symRow_spec {A : Csr R} (hA : A.WF) (hnp : A.np = A.n) (hnd : A.NoDup) {levfill i : ℕ} (hi : i < A.n)
    {junk : ℕ → ℕ} {st : IluPat × SymW}
    (h : RowsInv (fun a b => a < A.n ∧ A.Stored a b) levfill A.n i st) :
    Ok (symRow A levfill junk i st) (RowsInv (fun a b => a < A.n ∧ A.Stored a b) levfill A.n (i + 1)) := by
  classical
  set n := A.n with hn
  set S : ℕ → ℕ → Prop := fun a b => a < n ∧ A.Stored a b with hS
  have hSn : ∀ a b, S a b → b < n := by
    rintro a b ⟨ha, t, t1, t2, rfl⟩
    rw [← hnp]; exact hA.idx t (hA.ptr.lt_nnz ha t2)
  obtain ⟨P, s0⟩ := st
  have r1 := h.szL
  have r2 := h.szU
  dsimp only at r1 r2
  unfold symRow
  dsimp only
  rw [Ok_bind]
  refine (symScan_spec hA hnp hnd hi h.clear).mono ?_
  rintro s ⟨k1, k2⟩
  have hp0 : PivInv S levfill n i P 0 s := by
    refine ⟨k1, Nat.zero_le _, fun p q _ _ h => by omega, fun c l hc hl => ?_, fun c hc hs hne => ?_,
      fun p t a h => by omega⟩
    · rw [k2 c hc] at hl
      split_ifs at hl with e
      cases hl
      exact ⟨.stored ⟨hi, e.1⟩, Nat.zero_le _⟩
    · rw [k2 c hc, if_pos ⟨hs.2, hne⟩]
  rw [Ok_bind]
  refine (symPivots_spec hi h.rows r2 hp0).mono ?_
  rintro ⟨m, s1⟩ q
  dsimp only at q ⊢
  have j1 := q.inv.jsz
  have j2 := q.inv.lsz
  have j3 := q.inv.isz
  have hle := q.inv.incl_le
  have hhu := q.inv.hu
  have hun := q.inv.incu_le hi
  rw [Ok_bind]
  refine (symReset_spec (n := n) (by omega) j3 (fun p _ p2 => q.inv.col_lt hi (.inl p2)) (Nat.zero_le _)).mono ?_
  rintro w1 ⟨w1s, w1g⟩
  rw [Ok_bind]
  refine (symReset_spec (n := n) (by omega) w1s (fun p p1 p2 => q.inv.col_lt hi (.inr ⟨p1, p2⟩)) hhu).mono ?_
  rintro w2 ⟨w2s, w2g⟩
  simp only [Ok_bind, Ok_wr]
  refine ⟨by omega, ?_⟩
  refine (symCopy_spec (by omega)).mono ?_
  rintro li ⟨li1, li2⟩
  refine ⟨by omega, ?_⟩
  refine (symCopy_spec (by omega)).mono ?_
  rintro ui ⟨ui1, ui2⟩
  refine (symCopy_spec (by omega)).mono ?_
  rintro ul ⟨ul1, ul2⟩
  rw [Ok_pure]
  simp only [Nat.zero_add] at li2
  refine ⟨r1, r2, ⟨j1, j2, w2s, fun c hc => ?_⟩, fun k hk => ?_⟩
  · dsimp only
    rw [w2g c]
    split_ifs with e
    · rfl
    · rw [w1g c]
      split_ifs with e2
      · rfl
      · cases e3 : s1.iw.get c with
        | none => rfl
        | some p =>
          obtain ⟨b1, b2⟩ := q.inv.bwd c p hc e3
          rcases b1 with a | a
          · exact absurd ⟨p, Nat.zero_le _, a, b2⟩ e2
          · exact absurd ⟨p, a.1, a.2, b2⟩ e
  · have inU : ∀ p, p < s1.incu - i → s1.In i (i + p) := fun p hp => .inr ⟨by omega, by omega⟩
    by_cases e : k = i
    · subst e
      have find : ∀ j l, l ≤ levfill → FillLevel S k j l → j ≠ k → j < n ∧ ∃ p, s1.In k p ∧ s1.jbuf.get p = j ∧
          s1.levls.get p ≤ l := by
        intro j l hl hf hne
        have hjn : j < n := by
          clear hl hne
          cases hf with
          | stored hs => exact hSn _ _ hs
          | fill _ _ _ f2 =>
            clear * - f2 hSn
            induction f2 with
            | stored hs => exact hSn _ _ hs
            | fill _ _ _ _ _ ih => exact ih
        obtain ⟨l', g1, g2⟩ := q.complete hi hSn h.rows hf hl hne
        unfold SymW.lv at g2
        cases e3 : s1.iw.get j with
        | none => rw [e3] at g2; cases g2
        | some p =>
          rw [e3, Option.map_some] at g2
          obtain ⟨b1, b2⟩ := q.inv.bwd j p hjn e3
          exact ⟨hjn, p, b1, b2, by have := Option.some.inj g2; omega⟩
      have e1 : ∀ (x y : Arr ℕ), (if k = k then x else y) = x := fun x y => if_pos rfl
      refine ⟨?_, ?_, ?_, ?_, ?_, ?_, ?_, ?_, ?_, ?_, ?_⟩
      · dsimp only; rw [e1, Arr.set_get_self, li1]
      · dsimp only; rw [e1, Arr.set_get_self, ui1]
      · dsimp only; rw [e1, Arr.set_get_self, ul1]
      · dsimp only; rw [e1, Arr.set_get_self]
        intro p r p1 p2
        rw [li2 p (by omega), li2 r p2]
        exact q.ord p r p1 p2 (by omega)
      · dsimp only; rw [e1, Arr.set_get_self]
        intro p p1
        rw [li2 p p1]; exact q.inv.low p p1
      · dsimp only; rw [e1, Arr.set_get_self]
        intro p p1
        rw [ui2 p p1]; exact q.inv.up _ (by omega) (by omega)
      · dsimp only; rw [e1, Arr.set_get_self]
        intro p r p1 r1 e2
        rw [ui2 p p1, ui2 r r1] at e2
        have := q.inv.inj (inU p p1) (inU r r1) e2
        omega
      · dsimp only; rw [e1, Arr.set_get_self]
        intro p p1
        rw [li2 p p1]
        have := q.sound _ _ (q.inv.col_lt hi (.inl p1)) (q.inv.lv_fwd (.inl p1))
        exact ⟨_, this.2, this.1⟩
      · dsimp only; rw [e1, e1, Arr.set_get_self]
        intro p p1
        rw [ui2 p p1, ul2 p p1]
        exact q.sound _ _ (q.inv.col_lt hi (inU p p1)) (q.inv.lv_fwd (inU p p1))
      · dsimp only; rw [e1, Arr.set_get_self]
        intro j l hj hl hf
        obtain ⟨_, p, p1, p2, p3⟩ := find j l hl hf (by omega)
        rcases p1 with a | a
        · exact ⟨p, a, by rw [li2 p a]; exact p2⟩
        · have := q.inv.up p a.1 a.2; omega
      · dsimp only; rw [e1, e1, Arr.set_get_self]
        intro j l hj hl hf
        obtain ⟨_, p, p1, p2, p3⟩ := find j l hl hf (by omega)
        rcases p1 with a | a
        · have := q.inv.low p a; omega
        · refine ⟨p - k, by omega, ?_⟩
          rw [ui2 _ (by omega), ul2 _ (by omega), show k + (p - k) = p by omega]
          exact ⟨p2, p3⟩
    · have hk' := h.rows k (by omega)
      have e1 : ∀ (x y : Arr ℕ), (if k = i then x else y) = y := fun x y => if_neg e
      refine ⟨?_, ?_, ?_, ?_, ?_, ?_, ?_, ?_, ?_, ?_, ?_⟩
      · dsimp only; rw [e1, Arr.set_get_ne _ _ e]; exact hk'.szL
      · dsimp only; rw [e1, Arr.set_get_ne _ _ e]; exact hk'.szU
      · dsimp only; rw [e1, Arr.set_get_ne _ _ e]; exact hk'.szV
      · dsimp only; rw [e1, Arr.set_get_ne _ _ e]; exact hk'.sorted
      · dsimp only; rw [e1, Arr.set_get_ne _ _ e]; exact hk'.low
      · dsimp only; rw [e1, Arr.set_get_ne _ _ e]; exact hk'.up
      · dsimp only; rw [e1, Arr.set_get_ne _ _ e]; exact hk'.injU
      · dsimp only; rw [e1, Arr.set_get_ne _ _ e]; exact hk'.soundL
      · dsimp only; rw [e1, e1, Arr.set_get_ne _ _ e]; exact hk'.soundU
      · dsimp only; rw [e1, Arr.set_get_ne _ _ e]; exact hk'.compL
      · dsimp only; rw [e1, e1, Arr.set_get_ne _ _ e]; exact hk'.compU

/-- the symbolic factorization computes the level-of-fill pattern -/
theorem symbolic_rows {A : Csr R} (hA : A.WF) (hnp : A.np = A.n) (hnd : A.NoDup) (levfill : ℕ) (junk : ℕ → ℕ)
    (junkIw : ℕ → Option ℕ) : Ok (symbolicFactCsr A levfill junk junkIw) fun P => P.nnzL.size = A.n ∧ P.nnzU.size = A.n ∧
      ∀ k, k < A.n → PatRow (fun a b => a < A.n ∧ A.Stored a b) levfill A.n P k := by
  unfold symbolicFactCsr
  rw [Ok_bind]
  refine Ok_loop_le (fun m (w : Arr (Option ℕ)) => w.size = A.n ∧ ∀ c, c < m → w.get c = none) (Nat.zero_le _)
    ⟨rfl, fun c hc => absurd hc (by omega)⟩ ?_ ?_
  · rintro m w - m2 ⟨a, b⟩
    rw [Ok_wr]
    refine ⟨by omega, a, fun c hc => ?_⟩
    rw [Arr.set_get]
    split_ifs
    · rfl
    · exact b c (by omega)
  · rintro iw ⟨w1, w2⟩
    dsimp only
    rw [Ok_bind]
    refine Ok_loop_le (fun i st => RowsInv (fun a b => a < A.n ∧ A.Stored a b) levfill A.n i st) (Nat.zero_le _)
      ⟨rfl, rfl, ⟨rfl, rfl, w1, w2⟩, fun k hk => absurd hk (by omega)⟩ ?_ ?_
    · rintro i st - hi hst
      exact symRow_spec hA hnp hnd hi hst
    · rintro r hr
      rw [Ok_pure]
      exact ⟨hr.szL, hr.szU, hr.rows⟩

end Lis
