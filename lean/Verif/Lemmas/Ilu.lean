import Verif.Model.Ilu
import Verif.Spec.Ilu
import Verif.Lemmas.Matvec1
import Mathlib.Data.Finset.Card
import Mathlib.Data.Nat.Notation

/-! Symbolic factorization of ILU(p) -/

namespace Lis
open Finset
variable {R : Type}

/-- the matrix stores position `(i,j)` -/
def Csr.Stored (A : Csr R) (i j : ℕ) : Prop :=
  ∃ t, A.ptr.get i ≤ t ∧ t < A.ptr.get (i + 1) ∧ A.index.get t = j

theorem card_push {f : ℕ → ℕ} {a b c d x : ℕ} (hab : a ≤ b) (hf : ∀ p, a ≤ p → p < b → c ≤ f p ∧ f p < d)
    (hinj : ∀ p q, a ≤ p → p < b → a ≤ q → q < b → f p = f q → p = q) (hx : c ≤ x ∧ x < d)
    (hne : ∀ p, a ≤ p → p < b → f p ≠ x) : b - a < d - c := by
  have h : (Ico a (b + 1)).card ≤ (Ico c d).card := by
    refine Finset.card_le_card_of_injOn (fun p => if p = b then x else f p) ?_ ?_
    · intro p hp
      simp only [coe_Ico, Set.mem_Ico] at hp ⊢
      by_cases h : p = b
      · simp only [h, if_true]; exact hx
      · simp only [h, if_false]; exact hf p hp.1 (by omega)
    · intro p hp q hq e
      simp only [coe_Ico, Set.mem_Ico] at hp hq
      simp only at e
      by_cases h1 : p = b <;> by_cases h2 : q = b
      · omega
      · rw [if_pos h1, if_neg h2] at e
        exact absurd e.symm (hne q hq.1 (by omega))
      · rw [if_neg h1, if_pos h2] at e
        exact absurd e (hne p hp.1 (by omega))
      · rw [if_neg h1, if_neg h2] at e
        exact hinj p q hp.1 (by omega) hq.1 (by omega) e
  rw [Nat.card_Ico, Nat.card_Ico] at h
  omega

/-- positions in use -/
def SymW.In (i : ℕ) (s : SymW) (p : ℕ) : Prop := p < s.incl ∨ i ≤ p ∧ p < s.incu

/-- level currently recorded for column `c` -/
def SymW.lv (s : SymW) (c : ℕ) : Option ℕ := (s.iw.get c).map s.levls.get

structure SymInv (n i : ℕ) (s : SymW) : Prop where
  jsz : s.jbuf.size = n
  lsz : s.levls.size = n
  isz : s.iw.size = n
  hu : i ≤ s.incu
  fwd : ∀ p, s.In i p → s.iw.get (s.jbuf.get p) = some p
  bwd : ∀ c p, c < n → s.iw.get c = some p → s.In i p ∧ s.jbuf.get p = c
  low : ∀ p, p < s.incl → s.jbuf.get p < i
  up : ∀ p, i ≤ p → p < s.incu → i < s.jbuf.get p ∧ s.jbuf.get p < n

theorem SymInv.inj {n i : ℕ} {s : SymW} (h : SymInv n i s) {p q : ℕ} (hp : s.In i p) (hq : s.In i q)
    (e : s.jbuf.get p = s.jbuf.get q) : p = q := by
  have h1 := h.fwd p hp
  have h2 := h.fwd q hq
  rw [e, h2] at h1
  exact (Option.some.inj h1).symm

theorem SymInv.incl_lt {n i c : ℕ} {s : SymW} (h : SymInv n i s) (hc : c < i) (hn : i < n) (hiw : s.iw.get c = none) :
    s.incl < i := by
  have := card_push (f := s.jbuf.get) (a := 0) (b := s.incl) (c := 0) (d := i) (x := c) (Nat.zero_le _)
    (fun p _ hp => ⟨Nat.zero_le _, h.low p hp⟩) (fun p q _ hp _ hq e => h.inj (.inl hp) (.inl hq) e) ⟨Nat.zero_le _, hc⟩
    (fun p _ hp e => by
      have := h.fwd p (.inl hp)
      rw [e, hiw] at this; cases this)
  omega

theorem SymInv.incl_le {n i : ℕ} {s : SymW} (h : SymInv n i s) : s.incl ≤ i := by
  have h1 : (range s.incl).card ≤ (range i).card := by
    refine Finset.card_le_card_of_injOn s.jbuf.get ?_ ?_
    · intro p hp
      simp only [coe_range, Set.mem_Iio] at hp ⊢
      exact h.low p hp
    · intro p hp q hq e
      simp only [coe_range, Set.mem_Iio] at hp hq
      exact h.inj (.inl hp) (.inl hq) e
  simpa using h1

theorem SymInv.incu_lt {n i c : ℕ} {s : SymW} (h : SymInv n i s) (hc : i < c) (hn : c < n) (hiw : s.iw.get c = none) :
    s.incu < n := by
  have := card_push (f := s.jbuf.get) (a := i) (b := s.incu) (c := i + 1) (d := n) (x := c) h.hu
    (fun p h1 h2 => h.up p h1 h2) (fun p q p1 p2 q1 q2 e => h.inj (.inr ⟨p1, p2⟩) (.inr ⟨q1, q2⟩) e) ⟨hc, hn⟩
    (fun p h1 h2 e => by
      have := h.fwd p (.inr ⟨h1, h2⟩)
      rw [e, hiw] at this; cases this)
  omega

theorem SymInv.incu_le {n i : ℕ} {s : SymW} (h : SymInv n i s) (hi : i < n) : s.incu ≤ n := by
  have h1 : (Ico i s.incu).card ≤ (Ico (i + 1) n).card := by
    refine Finset.card_le_card_of_injOn s.jbuf.get ?_ ?_
    · intro p hp
      simp only [coe_Ico, Set.mem_Ico] at hp ⊢
      exact h.up p hp.1 hp.2
    · intro p hp q hq e
      simp only [coe_Ico, Set.mem_Ico] at hp hq
      exact h.inj (.inr hp) (.inr hq) e
  rw [Nat.card_Ico, Nat.card_Ico] at h1
  omega

theorem SymInv.diag {n i : ℕ} {s : SymW} (h : SymInv n i s) (hi : i < n) : s.iw.get i = none := by
  cases e : s.iw.get i with
  | none => rfl
  | some p =>
    obtain ⟨h1, h2⟩ := h.bwd i p hi e
    rcases h1 with h1 | h1
    · have := h.low p h1; omega
    · have := h.up p h1.1 h1.2; omega

theorem SymInv.col_lt {n i : ℕ} {s : SymW} (h : SymInv n i s) (hi : i < n) {p : ℕ} (hp : s.In i p) : s.jbuf.get p < n := by
  rcases hp with hp | hp
  · have := h.low p hp; omega
  · exact (h.up p hp.1 hp.2).2

theorem SymInv.lv_fwd {n i : ℕ} {s : SymW} (h : SymInv n i s) {p : ℕ} (hp : s.In i p) :
    s.lv (s.jbuf.get p) = some (s.levls.get p) := by
  simp [SymW.lv, h.fwd p hp]

/-- effect of recording a new column -/
structure Pushed1 (n i col lv : ℕ) (s s' : SymW) : Prop where
  inv : SymInv n i s'
  incl : s.incl ≤ s'.incl
  jold : ∀ p, p < s.incl → s'.jbuf.get p = s.jbuf.get p
  jnew : ∀ p, s.incl ≤ p → p < s'.incl → s'.jbuf.get p = col
  lv : ∀ c, c < n → s'.lv c = if c = col ∧ c ≠ i then some lv else s.lv c

theorem symPush_spec {n i col lv : ℕ} {s : SymW} (h : SymInv n i s) (hi : i < n) (hc : col < n)
    (hiw : s.iw.get col = none) : Ok (symPush i col lv s) (Pushed1 n i col lv s) := by
  have j1 := h.jsz
  have j2 := h.lsz
  have j3 := h.isz
  have hlev : ∀ c p, c < n → s.iw.get c = some p → ∀ q, ¬ s.In i q → p ≠ q := by
    intro c p hc hp q hq e
    subst e
    exact hq (h.bwd c p hc hp).1
  unfold symPush
  split_ifs with h1 h2
  · have hb := h.incl_lt h1 hi hiw
    unfold symPushL
    simp only [Ok_bind, Ok_wr]
    rw [Ok_pure]
    refine ⟨by omega, by omega, by omega, ?_⟩
    have hnot : ¬ s.In i s.incl := by rintro (a | a) <;> omega
    refine ⟨⟨j1, j2, j3, h.hu, ?_, ?_, ?_, ?_⟩, ?_, ?_, ?_, ?_⟩
    · intro p hp
      by_cases e : p = s.incl
      · subst e; simp
      · have hp' : s.In i p := by
          rcases hp with a | a
          · left; simp only at a; omega
          · exact .inr a
        dsimp only
        rw [Arr.set_get_ne _ _ e, Arr.set_get_ne _ _, h.fwd p hp']
        intro e2
        have := h.fwd p hp'
        rw [e2, hiw] at this; cases this
    · intro c p hcn hp
      dsimp only at hp
      rw [Arr.set_get] at hp
      by_cases e : c = col
      · rw [if_pos e] at hp
        cases hp
        refine ⟨.inl ?_, ?_⟩
        · dsimp only; omega
        · dsimp only; rw [Arr.set_get_self, e]
      · rw [if_neg e] at hp
        have hq := h.bwd c p hcn hp
        have hne := hlev c p hcn hp _ hnot
        refine ⟨?_, ?_⟩
        · rcases hq.1 with a | a
          · left; dsimp only; omega
          · exact .inr a
        · dsimp only; rw [Arr.set_get_ne _ _ hne]; exact hq.2
    · intro p hp
      dsimp only at hp ⊢
      rw [Arr.set_get]
      split_ifs
      · exact h1
      · exact h.low p (by omega)
    · intro p p1 p2
      dsimp only at p2 ⊢
      rw [Arr.set_get_ne _ _ (by omega)]
      exact h.up p p1 p2
    · dsimp only; omega
    · intro p hp
      dsimp only
      rw [Arr.set_get_ne _ _ (by omega)]
    · intro p p1 p2
      dsimp only at p2 ⊢
      rw [Arr.set_get, if_pos (by omega)]
    · intro c hcn
      unfold SymW.lv
      dsimp only
      rw [Arr.set_get]
      by_cases e : c = col
      · rw [if_pos e, if_pos ⟨e, by omega⟩]; simp
      · rw [if_neg e, if_neg (by tauto)]
        cases e2 : s.iw.get c with
        | none => rfl
        | some p =>
          simp only [Option.map_some]
          rw [Arr.set_get_ne _ _ (hlev c p hcn e2 _ hnot)]
  · have hb := h.incu_lt h2 hc hiw
    have hle := h.incl_le
    have hhu := h.hu
    unfold symPushU
    simp only [Ok_bind, Ok_wr]
    rw [Ok_pure]
    refine ⟨by omega, by omega, by omega, ?_⟩
    have hnot : ¬ s.In i s.incu := by rintro (a | a) <;> omega
    refine ⟨⟨j1, j2, j3, by dsimp only; omega, ?_, ?_, ?_, ?_⟩, ?_, ?_, ?_, ?_⟩
    · intro p hp
      by_cases e : p = s.incu
      · subst e; simp
      · have hp' : s.In i p := by
          rcases hp with a | a
          · exact .inl a
          · right; dsimp only at a; omega
        dsimp only
        rw [Arr.set_get_ne _ _ e, Arr.set_get_ne _ _, h.fwd p hp']
        intro e2
        have := h.fwd p hp'
        rw [e2, hiw] at this; cases this
    · intro c p hcn hp
      dsimp only at hp
      rw [Arr.set_get] at hp
      by_cases e : c = col
      · rw [if_pos e] at hp
        cases hp
        refine ⟨.inr ⟨by omega, ?_⟩, ?_⟩
        · dsimp only; omega
        · dsimp only; rw [Arr.set_get_self, e]
      · rw [if_neg e] at hp
        have hq := h.bwd c p hcn hp
        have hne := hlev c p hcn hp _ hnot
        refine ⟨?_, ?_⟩
        · rcases hq.1 with a | a
          · exact .inl a
          · right; dsimp only; omega
        · dsimp only; rw [Arr.set_get_ne _ _ hne]; exact hq.2
    · intro p hp
      dsimp only at hp ⊢
      rw [Arr.set_get_ne _ _ (by omega)]
      exact h.low p (by omega)
    · intro p p1 p2
      dsimp only at p2 ⊢
      rw [Arr.set_get]
      split_ifs
      · exact ⟨h2, hc⟩
      · exact h.up p p1 (by omega)
    · exact le_refl _
    · intro p hp
      dsimp only
      rw [Arr.set_get_ne _ _ (by omega)]
    · intro p p1 p2
      dsimp only at p2
      omega
    · intro c hcn
      unfold SymW.lv
      dsimp only
      rw [Arr.set_get]
      by_cases e : c = col
      · rw [if_pos e, if_pos ⟨e, by omega⟩]; simp
      · rw [if_neg e, if_neg (by tauto)]
        cases e2 : s.iw.get c with
        | none => rfl
        | some p =>
          simp only [Option.map_some]
          rw [Arr.set_get_ne _ _ (hlev c p hcn e2 _ hnot)]
  · have e : col = i := by omega
    rw [Ok_some]
    refine ⟨h, le_refl _, fun _ _ => rfl, fun p p1 p2 => by omega, fun c hcn => ?_⟩
    rw [if_neg (by omega)]

/-- no column is marked -/
def SymW.Clear (n : ℕ) (s : SymW) : Prop :=
  s.jbuf.size = n ∧ s.levls.size = n ∧ s.iw.size = n ∧ ∀ c, c < n → s.iw.get c = none

open Classical in
theorem symScan_spec {A : Csr R} (hA : A.WF) (hnp : A.np = A.n) (hnd : A.NoDup) {i : ℕ} (hi : i < A.n) {s : SymW}
    (hs : s.Clear A.n) : Ok (symScan A i s) fun s' => SymInv A.n i s' ∧
      ∀ c, c < A.n → s'.lv c = if A.Stored i c ∧ c ≠ i then some 0 else none := by
  have hps := hA.ptr.size
  have his := hA.isz
  unfold symScan
  simp only [Ok_bind, Ok_rd]
  refine ⟨by omega, by omega, ?_⟩
  refine Ok_loop_le (fun j s' => SymInv A.n i s' ∧ ∀ c, c < A.n → s'.lv c =
    if (∃ t, A.ptr.get i ≤ t ∧ t < j ∧ A.index.get t = c) ∧ c ≠ i then some 0 else none) (hA.ptr.mono i hi) ?_ ?_ ?_
  · refine ⟨⟨hs.1, hs.2.1, hs.2.2.1, le_refl _, ?_, ?_, ?_, ?_⟩, ?_⟩
    · rintro p (a | a)
      · simp at a
      · dsimp only at a; omega
    · intro c p hc hp
      dsimp only at hp
      rw [hs.2.2.2 c hc] at hp; cases hp
    · intro p hp; simp at hp
    · intro p p1 p2; dsimp only at p2; omega
    · intro c hc
      rw [if_neg (by rintro ⟨⟨t, t1, t2, -⟩, -⟩; omega)]
      simp [SymW.lv, hs.2.2.2 c hc]
  · rintro j s1 j1 j2 ⟨k1, k2⟩
    have hj : j < A.nnz := hA.ptr.lt_nnz hi j2
    have hcn : A.index.get j < A.n := by rw [← hnp]; exact hA.idx j hj
    rw [Ok_bind, Ok_rd]
    refine ⟨by omega, ?_⟩
    have hnone : s1.iw.get (A.index.get j) = none := by
      have hl := k2 _ hcn
      rw [if_neg] at hl
      · unfold SymW.lv at hl
        cases e : s1.iw.get (A.index.get j) with
        | none => rfl
        | some p => rw [e] at hl; cases hl
      · rintro ⟨⟨t, t1, t2, t3⟩, -⟩
        have := hnd i hi t j t1 (by omega) j1 j2 t3
        omega
    refine (symPush_spec k1 hi hcn hnone).mono fun s2 h2 => ⟨h2.inv, fun c hc => ?_⟩
    rw [h2.lv c hc]
    by_cases e : c = A.index.get j ∧ c ≠ i
    · rw [if_pos e, if_pos ⟨⟨j, j1, by omega, e.1.symm⟩, e.2⟩]
    · rw [if_neg e, k2 c hc]
      refine if_congr ?_ rfl rfl
      constructor
      · rintro ⟨⟨t, t1, t2, t3⟩, h⟩
        exact ⟨⟨t, t1, by omega, t3⟩, h⟩
      · rintro ⟨⟨t, t1, t2, t3⟩, h⟩
        refine ⟨⟨t, t1, ?_, t3⟩, h⟩
        by_contra hh
        have : t = j := by omega
        subst this
        exact e ⟨t3.symm, h⟩
  · rintro s1 ⟨h1, h2⟩
    refine ⟨h1, fun c hc => ?_⟩
    rw [h2 c hc]
    rfl

theorem symMin_spec {n i jpiv : ℕ} {s : SymW} (h : SymInv n i s) (hi : i < n) (hj : jpiv < s.incl) :
    Ok (symMin jpiv s) fun p => jpiv ≤ p.2 ∧ p.2 < s.incl ∧ s.jbuf.get p.2 = p.1 ∧
      ∀ q, jpiv ≤ q → q < s.incl → p.1 ≤ s.jbuf.get q := by
  have j1 := h.jsz
  have hle := h.incl_le
  unfold symMin
  simp only [Ok_bind, Ok_rd]
  refine ⟨by omega, ?_⟩
  refine Ok_loop_le (fun j p => jpiv ≤ p.2 ∧ p.2 < s.incl ∧ s.jbuf.get p.2 = p.1 ∧
      ∀ q, jpiv ≤ q → q < j → p.1 ≤ s.jbuf.get q) (by omega) ?_ ?_ ?_
  · refine ⟨le_refl _, hj, rfl, fun q q1 q2 => ?_⟩
    have : q = jpiv := by omega
    subst this; exact le_refl _
  · rintro j p k1 k2 ⟨a, b, c, d⟩
    simp only [Ok_bind, Ok_rd]
    refine ⟨by omega, ?_⟩
    rw [Ok_ite]
    refine ⟨fun hl => ?_, fun hl => ?_⟩
    · rw [Ok_pure]
      refine ⟨by dsimp only; omega, k2, rfl, fun q q1 q2 => ?_⟩
      dsimp only
      by_cases e : q = j
      · subst e; exact le_refl _
      · have := d q q1 (by omega); omega
    · rw [Ok_pure]
      refine ⟨a, b, c, fun q q1 q2 => ?_⟩
      by_cases e : q = j
      · subst e; omega
      · exact d q q1 (by omega)
  · intro p hp; exact hp

/-- effect of the exchange -/
structure Swapped (n i jpiv k : ℕ) (s s' : SymW) : Prop where
  inv : SymInv n i s'
  incl : s'.incl = s.incl
  piv : s'.jbuf.get jpiv = k
  before : ∀ p, p < jpiv → s'.jbuf.get p = s.jbuf.get p
  after : ∀ q, jpiv ≤ q → q < s.incl → ∃ q', jpiv ≤ q' ∧ q' < s.incl ∧ s'.jbuf.get q = s.jbuf.get q'
  lv : ∀ c, c < n → s'.lv c = s.lv c

theorem symSwap_spec {n i jpiv : ℕ} {s : SymW} (h : SymInv n i s) (hi : i < n) {p : ℕ × ℕ} (h1 : jpiv ≤ p.2)
    (h2 : p.2 < s.incl) (h3 : s.jbuf.get p.2 = p.1) : Ok (symSwap jpiv p s) (Swapped n i jpiv p.1 s) := by
  have j1 := h.jsz
  have j2 := h.lsz
  have j3 := h.isz
  have hle := h.incl_le
  have c1 : p.1 < i := by rw [← h3]; exact h.low _ h2
  have c2 : s.jbuf.get jpiv < i := h.low _ (by omega)
  unfold symSwap
  by_cases e : p.2 = jpiv
  · rw [if_pos e, Ok_some]
    exact ⟨h, rfl, by rw [← e]; exact h3, fun _ _ => rfl, fun q q1 q2 => ⟨q, q1, q2, rfl⟩, fun _ _ => rfl⟩
  · rw [if_neg e]
    simp only [Ok_bind, Ok_rd, Ok_wr, Arr.set_size]
    rw [Ok_pure]
    refine ⟨by omega, by omega, by omega, by omega, by omega, by omega, by omega, by omega, by omega, ?_⟩
    have hne : p.1 ≠ s.jbuf.get jpiv := by
      rw [← h3]
      intro e2
      exact e (h.inj (.inl h2) (.inl (by omega)) e2)
    set jb := (s.jbuf.set jpiv p.1).set p.2 (s.jbuf.get jpiv) with hjb
    set w := (s.iw.set p.1 (some jpiv)).set (s.jbuf.get jpiv) (some p.2) with hw
    set lv := (s.levls.set jpiv (s.levls.get p.2)).set p.2 (s.levls.get jpiv) with hlv
    have gj : ∀ q, jb.get q = if q = p.2 then s.jbuf.get jpiv else if q = jpiv then p.1 else s.jbuf.get q := by
      intro q; rw [hjb, Arr.set_get, Arr.set_get]
    have gl : ∀ q, lv.get q = if q = p.2 then s.levls.get jpiv else if q = jpiv then s.levls.get p.2 else s.levls.get q := by
      intro q; rw [hlv, Arr.set_get, Arr.set_get]
    have gw : ∀ c, w.get c = if c = s.jbuf.get jpiv then some p.2 else if c = p.1 then some jpiv else s.iw.get c := by
      intro c; rw [hw, Arr.set_get, Arr.set_get]
    have in1 : s.In i jpiv := .inl (by omega)
    have in2 : s.In i p.2 := .inl h2
    refine ⟨⟨j1, j2, j3, h.hu, ?_, ?_, ?_, ?_⟩, rfl, ?_, ?_, ?_, ?_⟩
    · intro q hq
      dsimp only
      rw [gj q]
      by_cases q1 : q = p.2
      · rw [if_pos q1, gw, if_pos rfl, q1]
      · rw [if_neg q1]
        by_cases q2 : q = jpiv
        · rw [if_pos q2, gw, if_neg hne, if_pos rfl, q2]
        · rw [if_neg q2, gw, if_neg, if_neg]
          · exact h.fwd q hq
          · rw [← h3]; intro e2; exact q1 (h.inj hq in2 e2)
          · intro e2; exact q2 (h.inj hq in1 e2)
    · intro c q hc hq
      dsimp only at hq ⊢
      rw [gw] at hq
      rw [gj]
      by_cases e1 : c = s.jbuf.get jpiv
      · rw [if_pos e1] at hq; cases hq
        exact ⟨in2, by rw [if_pos rfl, e1]⟩
      · rw [if_neg e1] at hq
        by_cases e2 : c = p.1
        · rw [if_pos e2] at hq; cases hq
          exact ⟨in1, by rw [if_neg (Ne.symm e), if_pos rfl, e2]⟩
        · rw [if_neg e2] at hq
          obtain ⟨b1, b2⟩ := h.bwd c q hc hq
          refine ⟨b1, ?_⟩
          rw [if_neg, if_neg]
          · exact b2
          · intro e3; subst e3; exact e1 b2.symm
          · intro e3; rw [e3, h3] at b2; exact e2 b2.symm
    · intro q hq
      dsimp only
      rw [gj]
      split_ifs
      · exact c2
      · exact c1
      · exact h.low q hq
    · intro q q1 q2
      dsimp only at q2 ⊢
      rw [gj, if_neg (by omega), if_neg (by omega)]
      exact h.up q q1 q2
    · dsimp only
      rw [gj, if_neg (Ne.symm e), if_pos rfl]
    · intro q hq
      dsimp only
      rw [gj, if_neg (by omega), if_neg (by omega)]
    · intro q q1 q2
      dsimp only
      rw [gj]
      split_ifs with a b
      · exact ⟨jpiv, le_refl _, by omega, rfl⟩
      · exact ⟨p.2, h1, h2, h3.symm⟩
      · exact ⟨q, q1, q2, rfl⟩
    · intro c hc
      unfold SymW.lv
      dsimp only
      rw [gw]
      by_cases e1 : c = s.jbuf.get jpiv
      · rw [if_pos e1, e1, h.fwd _ in1, Option.map_some, Option.map_some, gl, if_pos rfl]
      · rw [if_neg e1]
        by_cases e2 : c = p.1
        · rw [if_pos e2, e2, ← h3, h.fwd _ in2, Option.map_some, Option.map_some, gl, if_neg (Ne.symm e), if_pos rfl]
        · rw [if_neg e2]
          cases e3 : s.iw.get c with
          | none => rfl
          | some q =>
            have b2 := (h.bwd c q hc e3).2
            rw [Option.map_some, Option.map_some, gl, if_neg, if_neg]
            · intro e4; subst e4; exact e1 b2.symm
            · intro e4; rw [e4, h3] at b2; exact e2 b2.symm

end Lis
