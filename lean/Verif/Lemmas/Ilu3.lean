import Verif.Lemmas.Ilu2
import Mathlib.Algebra.BigOperators.Ring.Finset
import Mathlib.Algebra.Field.Basic
import Mathlib.Tactic.Ring
import Mathlib.Tactic.LinearCombination

/-! Numerical factorization of ILU(p) -/

namespace Lis
open Finset
variable {R : Type}

/-- entry `(i,j)` of a factor: the sum of the elements stored for it -/
def IluMat.entry [AddCommMonoid R] (M : IluMat R) (i j : ℕ) : R :=
  ∑ t ∈ range (M.nnz.get i), if (M.index i).get t = j then (M.value i).get t else 0

/-- shape of a pattern row used by the numerical phase -/
structure PatShape (n : ℕ) (P : IluPat) (i : ℕ) : Prop where
  szL : (P.idxL i).size = P.nnzL.get i
  szU : (P.idxU i).size = P.nnzU.get i
  sorted : ∀ p q, p < q → q < P.nnzL.get i → (P.idxL i).get p < (P.idxL i).get q
  low : ∀ p, p < P.nnzL.get i → (P.idxL i).get p < i
  up : ∀ p, p < P.nnzU.get i → i < (P.idxU i).get p ∧ (P.idxU i).get p < n
  injU : ∀ p q, p < P.nnzU.get i → q < P.nnzU.get i → (P.idxU i).get p = (P.idxU i).get q → p = q

theorem PatRow.shape {S : ℕ → ℕ → Prop} {levfill n k : ℕ} {P : IluPat} (h : PatRow S levfill n P k) : PatShape n P k :=
  ⟨h.szL, h.szU, h.sorted, h.low, h.up, h.injU⟩

theorem PatShape.injL {n i : ℕ} {P : IluPat} (h : PatShape n P i) {p q : ℕ} (hp : p < P.nnzL.get i) (hq : q < P.nnzL.get i)
    (e : (P.idxL i).get p = (P.idxL i).get q) : p = q := by
  rcases Nat.lt_trichotomy p q with a | a | a
  · have := h.sorted p q a hq; omega
  · exact a
  · have := h.sorted q p a hp; omega

def InL (P : IluPat) (i c : ℕ) : Prop := ∃ p, p < P.nnzL.get i ∧ (P.idxL i).get p = c
def InU (P : IluPat) (i c : ℕ) : Prop := ∃ p, p < P.nnzU.get i ∧ (P.idxU i).get p = c
def InPat (P : IluPat) (i c : ℕ) : Prop := InL P i c ∨ c = i ∨ InU P i c

/-- the markers of row `i` are set -/
structure Marks (n : ℕ) (P : IluPat) (i : ℕ) (jw : Arr (Option ℕ)) : Prop where
  size : jw.size = n
  l : ∀ p, p < P.nnzL.get i → jw.get ((P.idxL i).get p) = some p
  d : jw.get i = some i
  u : ∀ p, p < P.nnzU.get i → jw.get ((P.idxU i).get p) = some p
  none : ∀ c, c < n → ¬ InPat P i c → jw.get c = .none

/-- row `i` of the state `s` holds the working row `w`; nothing else differs from `s0` -/
structure NumRel (n : ℕ) (P : IluPat) (i : ℕ) (s0 s : NumSt R) (w : ℕ → R) : Prop where
  szL : (s.Lv i).size = P.nnzL.get i
  szU : (s.Uv i).size = P.nnzU.get i
  szD : s.D.size = s0.D.size
  l : ∀ p, p < P.nnzL.get i → (s.Lv i).get p = w ((P.idxL i).get p)
  d : s.D.get i = w i
  u : ∀ p, p < P.nnzU.get i → (s.Uv i).get p = w ((P.idxU i).get p)
  oL : ∀ k, k ≠ i → s.Lv k = s0.Lv k
  oD : ∀ k, k ≠ i → s.D.get k = s0.D.get k
  oU : ∀ k, k ≠ i → s.Uv k = s0.Uv k
  marks : Marks n P i s.jw

theorem Ok_rowMod {v : ℕ → Arr R} {i j : ℕ} {f : R → R} {Q : (ℕ → Arr R) → Prop} :
    Ok (rowMod v i j f) Q ↔ j < (v i).size ∧ Q (fun k => if k = i then (v i).set j (f ((v i).get j)) else v k) := by
  unfold rowMod
  simp only [Ok_bind, Ok_rd, Ok_wr, Ok_pure]
  tauto

theorem numMod_spec {n i c : ℕ} {P : IluPat} (hP : PatShape n P i) (hi : i < n) {s0 s : NumSt R} {w : ℕ → R}
    (hD : n ≤ s0.D.size)
    (h : NumRel n P i s0 s w) (hc : InPat P i c) (f : R → R) :
    Ok (numMod i c (s.jw.get c) f s) fun s' => NumRel n P i s0 s' (Function.update w c (f (w c))) := by
  have z1 := h.szL
  have z2 := h.szU
  have z3 := h.szD
  unfold numMod
  rcases hc with ⟨p, p1, p2⟩ | e | ⟨p, p1, p2⟩
  · have hlt := hP.low p p1
    rw [if_pos (by omega), ← p2, h.marks.l p p1, Ok_bind, Ok_some, Ok_bind, Ok_rowMod]
    refine ⟨by omega, ?_⟩
    rw [Ok_pure]
    refine ⟨?_, z2, z3, fun q hq => ?_, ?_, fun q hq => ?_, fun k hk => ?_, h.oD, h.oU, h.marks⟩
    · dsimp only; rw [if_pos rfl, Arr.set_size, z1]
    · dsimp only
      rw [if_pos rfl, Arr.set_get]
      by_cases e : q = p
      · subst e; rw [if_pos rfl, Function.update_self, h.l q p1]
      · rw [if_neg e, Function.update_of_ne, h.l q hq]
        intro e2; exact e (hP.injL hq p1 e2)
    · dsimp only; rw [Function.update_of_ne (by omega)]; exact h.d
    · dsimp only
      rw [Function.update_of_ne, h.u q hq]
      have := hP.up q hq; omega
    · dsimp only; rw [if_neg hk]; exact h.oL k hk
  · subst e
    rw [if_neg (by omega), if_pos rfl]
    simp only [Ok_bind, Ok_rd, Ok_wr]
    refine ⟨by omega, by omega, ?_⟩
    rw [Ok_pure]
    refine ⟨z1, z2, z3, fun q hq => ?_, ?_, fun q hq => ?_, h.oL, fun k hk => ?_, h.oU, h.marks⟩
    · dsimp only
      rw [Function.update_of_ne, h.l q hq]
      have := hP.low q hq; omega
    · dsimp only; rw [Arr.set_get_self, Function.update_self, h.d]
    · dsimp only
      rw [Function.update_of_ne, h.u q hq]
      have := hP.up q hq; omega
    · dsimp only; rw [Arr.set_get_ne _ _ hk]; exact h.oD k hk
  · have hlt := hP.up p p1
    rw [if_neg (by omega), if_neg (by omega), ← p2, h.marks.u p p1, Ok_bind, Ok_some, Ok_bind, Ok_rowMod]
    refine ⟨by omega, ?_⟩
    rw [Ok_pure]
    refine ⟨z1, ?_, z3, fun q hq => ?_, ?_, fun q hq => ?_, h.oL, h.oD, fun k hk => ?_, h.marks⟩
    · dsimp only; rw [if_pos rfl, Arr.set_size, z2]
    · dsimp only
      rw [Function.update_of_ne, h.l q hq]
      have := hP.low q hq; omega
    · dsimp only; rw [Function.update_of_ne (by omega)]; exact h.d
    · dsimp only
      rw [if_pos rfl, Arr.set_get]
      by_cases e : q = p
      · subst e; rw [if_pos rfl, Function.update_self, h.u q p1]
      · rw [if_neg e, Function.update_of_ne, h.u q hq]
        intro e2; exact e (hP.injU q p hq p1 e2)
    · dsimp only; rw [if_neg hk]; exact h.oU k hk

theorem numMark_spec [Zero R] {n m i : ℕ} {idx : Arr ℕ} {v : ℕ → Arr R} {jw : Arr (Option ℕ)} (h1 : idx.size = m)
    (h2 : (v i).size = m) (h3 : jw.size = n) (h4 : ∀ p, p < m → idx.get p < n)
    (hinj : ∀ p q, p < m → q < m → idx.get p = idx.get q → p = q) :
    Ok (numMark m idx v i jw) fun q => (q.1 i).size = m ∧ q.2.size = n ∧ (∀ p, p < m → (q.1 i).get p = 0) ∧
      (∀ k, k ≠ i → q.1 k = v k) ∧ (∀ p, p < m → q.2.get (idx.get p) = some p) ∧
      (∀ c, (∀ p, p < m → idx.get p ≠ c) → q.2.get c = jw.get c) := by
  unfold numMark
  refine Ok_loop_le (fun j q => (q.1 i).size = m ∧ q.2.size = n ∧ (∀ p, p < j → (q.1 i).get p = 0) ∧
      (∀ k, k ≠ i → q.1 k = v k) ∧ (∀ p, p < j → q.2.get (idx.get p) = some p) ∧
      (∀ c, (∀ p, p < m → idx.get p ≠ c) → q.2.get c = jw.get c)) (Nat.zero_le _)
    ⟨h2, h3, fun p hp => absurd hp (by omega), fun _ _ => rfl, fun p hp => absurd hp (by omega), fun _ _ => rfl⟩ ?_
    fun q h => h
  rintro j q - hj ⟨a1, a2, a3, a4, a5, a6⟩
  simp only [Ok_bind, Ok_rd, Ok_wr]
  have := h4 j hj
  refine ⟨by omega, by omega, ?_⟩
  rw [Ok_rowMod]
  refine ⟨by omega, ?_⟩
  rw [Ok_pure]
  refine ⟨?_, a2, fun p hp => ?_, fun k hk => ?_, fun p hp => ?_, fun c hc => ?_⟩
  · dsimp only; rw [if_pos rfl, Arr.set_size, a1]
  · dsimp only; rw [if_pos rfl, Arr.set_get]
    split_ifs
    · rfl
    · exact a3 p (by omega)
  · dsimp only; rw [if_neg hk]; exact a4 k hk
  · dsimp only; rw [Arr.set_get]
    by_cases e : p = j
    · subst e; rw [if_pos rfl]
    · rw [if_neg, a5 p (by omega)]
      intro e2; exact e (hinj p j (by omega) hj e2)
  · dsimp only; rw [Arr.set_get_ne _ _ (Ne.symm (hc j hj))]; exact a6 c hc

theorem numUnmark_spec {n m : ℕ} {idx : Arr ℕ} {jw : Arr (Option ℕ)} (h1 : idx.size = m) (h3 : jw.size = n)
    (h4 : ∀ p, p < m → idx.get p < n) :
    Ok (numUnmark m idx jw) fun q => q.size = n ∧ (∀ p, p < m → q.get (idx.get p) = none) ∧
      (∀ c, jw.get c = none → q.get c = none) := by
  unfold numUnmark
  refine Ok_loop_le (fun j q => q.size = n ∧ (∀ p, p < j → q.get (idx.get p) = none) ∧
      (∀ c, jw.get c = none → q.get c = none)) (Nat.zero_le _)
    ⟨h3, fun p hp => absurd hp (by omega), fun _ h => h⟩ ?_ fun q h => h
  rintro j q - hj ⟨a1, a2, a3⟩
  simp only [Ok_bind, Ok_rd, Ok_wr]
  have := h4 j hj
  refine ⟨by omega, by omega, a1, fun p hp => ?_, fun c hc => ?_⟩
  · rw [Arr.set_get]
    split_ifs with e
    · rfl
    · refine a2 p ?_
      by_contra hh
      have : p = j := by omega
      subst this; exact e rfl
  · rw [Arr.set_get]
    split_ifs
    · rfl
    · exact a3 c hc

theorem numInit_spec [Zero R] {n i : ℕ} {P : IluPat} (hP : PatShape n P i) (hi : i < n) (hL : P.nnzL.size = n)
    (hU : P.nnzU.size = n) {s : NumSt R} (hD : n ≤ s.D.size) (zL : (s.Lv i).size = P.nnzL.get i)
    (zU : (s.Uv i).size = P.nnzU.get i) (hj : s.jw.size = n) (hc : ∀ c, c < n → s.jw.get c = none) :
    Ok (numInit P i s) fun s' => NumRel n P i s s' fun _ => 0 := by
  unfold numInit
  rw [Ok_bind, Ok_rd]
  refine ⟨by omega, ?_⟩
  rw [Ok_bind]
  refine (numMark_spec (n := n) hP.szL zL hj (fun p hp => by have := hP.low p hp; omega)
    (fun p q hp hq => hP.injL hp hq)).mono ?_
  rintro ⟨lv, j1⟩ ⟨a1, a2, a3, a4, a5, a6⟩
  dsimp only at a1 a2 a3 a4 a5 a6 ⊢
  simp only [Ok_bind, Ok_wr, Ok_rd]
  refine ⟨by omega, by omega, by omega, ?_⟩
  refine (numMark_spec (n := n) hP.szU zU (by rw [Arr.set_size]; exact a2) (fun p hp => (hP.up p hp).2)
    (fun p q hp hq => hP.injU p q hp hq)).mono ?_
  rintro ⟨uv, j2⟩ ⟨b1, b2, b3, b4, b5, b6⟩
  dsimp only at b1 b2 b3 b4 b5 b6 ⊢
  rw [Ok_pure]
  have bd : ∀ c, c ≤ i → j2.get c = (j1.set i (some i)).get c := fun c hc => b6 c fun p hp => by
    have := hP.up p hp; omega
  refine ⟨a1, b1, rfl, a3, by dsimp only; rw [Arr.set_get_self], b3, a4,
    fun k hk => by dsimp only; rw [Arr.set_get_ne _ _ hk], b4, ⟨b2, fun p hp => ?_, ?_, b5, fun c hcn hn => ?_⟩⟩
  · have := hP.low p hp
    dsimp only
    rw [bd _ (by omega), Arr.set_get_ne _ _ (by omega), a5 p hp]
  · dsimp only; rw [bd i (le_refl _), Arr.set_get_self]
  · dsimp only
    rw [b6 c fun p hp e => hn (.inr (.inr ⟨p, hp, e⟩)), Arr.set_get_ne _ _ fun e => hn (.inr (.inl e)),
      a6 c fun p hp e => hn (.inl ⟨p, hp, e⟩)]
    exact hc c hcn

/-- agreement of two working rows on the pattern -/
theorem NumRel.congr {n i : ℕ} {P : IluPat} {s0 s : NumSt R} {w w' : ℕ → R}
    (h : NumRel n P i s0 s w) (hw : ∀ c, InPat P i c → w c = w' c) : NumRel n P i s0 s w' :=
  ⟨h.szL, h.szU, h.szD, fun p hp => by rw [h.l p hp, hw _ (.inl ⟨p, hp, rfl⟩)],
    by rw [h.d, hw _ (.inr (.inl rfl))], fun p hp => by rw [h.u p hp, hw _ (.inr (.inr ⟨p, hp, rfl⟩))],
    h.oL, h.oD, h.oU, h.marks⟩

section ring
variable [CommRing R]

theorem numScatter_spec {A : Csr R} (hA : A.WF) (hnd : A.NoDup) {P : IluPat} {i : ℕ} (hi : i < A.n)
    (hP : PatShape A.n P i) (hc : ∀ c, A.Stored i c → c < A.n ∧ InPat P i c) {s0 s : NumSt R} (hD : A.n ≤ s0.D.size)
    (h : NumRel A.n P i s0 s fun _ => 0) : Ok (numScatter A i s) fun s' => NumRel A.n P i s0 s' (A.entry i) := by
  have hps := hA.ptr.size
  have his := hA.isz
  have hvs := hA.vsz
  unfold numScatter
  simp only [Ok_bind, Ok_rd]
  refine ⟨by omega, by omega, ?_⟩
  refine Ok_loop_le (fun j s' => NumRel A.n P i s0 s' fun c =>
      ∑ t ∈ Ico (A.ptr.get i) j, if A.index.get t = c then A.value.get t else 0) (hA.ptr.mono i hi) ?_ ?_ fun s h => h
  · simpa using h
  · intro j s' j1 j2 hs'
    have hj : j < A.nnz := hA.ptr.lt_nnz hi j2
    obtain ⟨c1, c2⟩ := hc _ ⟨j, j1, j2, rfl⟩
    have := hs'.marks.size
    simp only [Ok_bind, Ok_rd]
    refine ⟨by omega, by omega, by omega, ?_⟩
    refine (numMod_spec hP hi hD hs' c2 _).mono fun s2 h2 => h2.congr fun c _ => ?_
    rw [sum_Ico_succ_top j1]
    by_cases e : c = A.index.get j
    · subst e
      rw [Function.update_self, if_pos rfl, sum_eq_zero, zero_add]
      intro t ht
      rw [mem_Ico] at ht
      rw [if_neg]
      intro e
      have := hnd i hi t j ht.1 (by omega) j1 j2 e
      omega
    · rw [Function.update_of_ne e, if_neg (Ne.symm e), add_zero]

/-- entry of the `U` part of the state -/
def uEnt (P : IluPat) (s : NumSt R) (k c : ℕ) : R :=
  ∑ t ∈ range (P.nnzU.get k), if (P.idxU k).get t = c then (s.Uv k).get t else 0

theorem uEnt_low {n k : ℕ} {P : IluPat} (hP : PatShape n P k) (s : NumSt R) {c : ℕ} (hc : c ≤ k) : uEnt P s k c = 0 := by
  unfold uEnt
  refine sum_eq_zero fun t ht => if_neg ?_
  have := hP.up t (mem_range.1 ht)
  omega

theorem numElim_spec {n i j : ℕ} {P : IluPat} (hP : ∀ k, k ≤ i → PatShape n P k) (hi : i < n) (hU : P.nnzU.size = n)
    (hj : j < P.nnzL.get i) {s0 s : NumSt R} {w : ℕ → R} (hD : n ≤ s0.D.size)
    (hsz : ∀ k, k < i → (s0.Uv k).size = P.nnzU.get k)
    (h : NumRel n P i s0 s w) :
    Ok (numElim P i j s) fun s' => NumRel n P i s0 s' fun c =>
      if c = (P.idxL i).get j then w c * s0.D.get c
      else w c - w ((P.idxL i).get j) * s0.D.get ((P.idxL i).get j) * uEnt P s0 ((P.idxL i).get j) c := by
  have hPi := hP i (le_refl _)
  have hr := hPi.low j hj
  have z1 := h.szL
  have z2 := hPi.szL
  have z3 := h.szD
  have hPr := hP _ (le_of_lt hr)
  have zr := hsz _ hr
  set r := (P.idxL i).get j with hrdef
  unfold numElim
  simp only [Ok_bind, Ok_rd]
  refine ⟨by omega, ?_⟩
  rw [← hrdef]
  refine ⟨by omega, ?_⟩
  rw [Ok_rowMod]
  refine ⟨by omega, by omega, ?_⟩
  have w0 : NumRel n P i s0 { s with Lv := fun k => if k = i then (s.Lv i).set j ((s.Lv i).get j * s.D.get r) else s.Lv k }
      (Function.update w r (w r * s0.D.get r)) := by
    refine ⟨?_, h.szU, z3, fun q hq => ?_, ?_, fun q hq => ?_, fun k hk => ?_, h.oD, h.oU, h.marks⟩
    · dsimp only; rw [if_pos rfl, Arr.set_size, z1]
    · dsimp only
      rw [if_pos rfl, Arr.set_get]
      by_cases e : q = j
      · subst e; rw [if_pos rfl, ← hrdef, Function.update_self, h.l q hj, h.oD r (by omega)]
      · rw [if_neg e, Function.update_of_ne, h.l q hq]
        intro e2; exact e (hPi.injL hq hj e2)
    · dsimp only; rw [Function.update_of_ne (by omega)]; exact h.d
    · dsimp only
      rw [Function.update_of_ne, h.u q hq]
      have := hPi.up q hq; omega
    · dsimp only; rw [if_neg hk]; exact h.oL k hk
  refine Ok_loop_le (fun k s' => NumRel n P i s0 s' fun c =>
      if c = r then w c * s0.D.get c
      else w c - w r * s0.D.get r * ∑ t ∈ range k, if (P.idxU r).get t = c then (s0.Uv r).get t else 0)
    (Nat.zero_le _) ?_ ?_ fun s h => h
  · refine w0.congr fun c _ => ?_
    by_cases e : c = r
    · subst e; rw [Function.update_self, if_pos rfl]
    · rw [Function.update_of_ne e, if_neg e]; simp
  · intro k s' _ hk hs'
    have hup := hPr.up k hk
    have zu := hPr.szU
    have hjs := hs'.marks.size
    unfold numElim1
    simp only [Ok_bind, Ok_rd]
    refine ⟨by omega, by omega, ?_⟩
    by_cases hin : InPat P i ((P.idxU r).get k)
    · have hsome : ∃ p, s'.jw.get ((P.idxU r).get k) = some p := by
        rcases hin with ⟨p, p1, p2⟩ | e | ⟨p, p1, p2⟩
        · exact ⟨p, by rw [← p2]; exact hs'.marks.l p p1⟩
        · exact ⟨i, by rw [e]; exact hs'.marks.d⟩
        · exact ⟨p, by rw [← p2]; exact hs'.marks.u p p1⟩
      obtain ⟨p, hp⟩ := hsome
      rw [hp]
      simp only [Ok_bind, Ok_rd]
      have e1 := hs'.szL
      have e2 : s'.Uv r = s0.Uv r := hs'.oU r (by omega)
      refine ⟨by omega, by rw [e2]; omega, ?_⟩
      rw [← hp, hs'.l j hj, e2, ← hrdef, if_pos rfl]
      refine (numMod_spec hPi hi hD hs' hin _).mono fun s2 h2 => h2.congr fun c _ => ?_
      by_cases e : c = (P.idxU r).get k
      · subst e
        rw [Function.update_self, if_neg (by omega), if_neg (by omega), sum_range_succ, if_pos rfl]
        ring
      · rw [Function.update_of_ne e]
        by_cases e3 : c = r
        · rw [if_pos e3, if_pos e3]
        · rw [if_neg e3, if_neg e3, sum_range_succ, if_neg (Ne.symm e), add_zero]
    · rw [hs'.marks.none _ hup.2 hin]
      simp only
      rw [Ok_pure]
      refine hs'.congr fun c hc => ?_
      by_cases e3 : c = r
      · rw [if_pos e3, if_pos e3]
      · rw [if_neg e3, if_neg e3, sum_range_succ, if_neg, add_zero]
        intro e; rw [e] at hin; exact hin hc

open Classical in
theorem numElims_spec {n i : ℕ} {P : IluPat} (hP : ∀ k, k ≤ i → PatShape n P k) (hi : i < n) (hU : P.nnzU.size = n)
    {s0 s : NumSt R} {a : ℕ → R} (hD : n ≤ s0.D.size)
    (hsz : ∀ k, k < i → (s0.Uv k).size = P.nnzU.get k)
    (h : NumRel n P i s0 s a) :
    Ok (loop 0 (P.nnzL.get i) s fun j s => numElim P i j s) fun s' => ∃ w, NumRel n P i s0 s' w ∧
      ∀ c, InPat P i c → w c =
        (a c - ∑ t ∈ range (P.nnzL.get i), w ((P.idxL i).get t) * uEnt P s0 ((P.idxL i).get t) c) *
          if InL P i c then s0.D.get c else 1 := by
  have hPi := hP i (le_refl _)
  refine Ok_loop_le (fun m s' => ∃ w, NumRel n P i s0 s' w ∧ ∀ c, InPat P i c → w c =
        (a c - ∑ t ∈ range m, w ((P.idxL i).get t) * uEnt P s0 ((P.idxL i).get t) c) *
          if (∃ p, p < m ∧ (P.idxL i).get p = c) then s0.D.get c else 1) (Nat.zero_le _) ?_ ?_ (by
      rintro s ⟨w, h1, h2⟩
      exact ⟨w, h1, fun c hc => by rw [h2 c hc]; congr 1; exact if_congr Iff.rfl rfl rfl⟩)
  · refine ⟨a, h, fun c _ => ?_⟩
    rw [if_neg (by rintro ⟨p, hp, -⟩; omega)]
    simp
  · rintro m s' - hm ⟨w, h1, h2⟩
    refine (numElim_spec hP hi hU hm hD hsz h1).mono fun s2 h3 => ⟨_, h3, fun c hc => ?_⟩
    set r := (P.idxL i).get m with hr
    have hri := hPi.low m hm
    have hPr := hP r (by omega)
    have old : ∀ t, t < m → (P.idxL i).get t < r := fun t ht => hPi.sorted t m ht hm
    have hsum : ∀ x, ∑ t ∈ range (m + 1), (if (P.idxL i).get t = r then w ((P.idxL i).get t) * s0.D.get ((P.idxL i).get t)
          else w ((P.idxL i).get t) - w r * s0.D.get r * uEnt P s0 r ((P.idxL i).get t)) * uEnt P s0 ((P.idxL i).get t) x =
        ∑ t ∈ range m, w ((P.idxL i).get t) * uEnt P s0 ((P.idxL i).get t) x + w r * s0.D.get r * uEnt P s0 r x := by
      intro x
      rw [sum_range_succ, ← hr, if_pos rfl]
      congr 1
      refine sum_congr rfl fun t ht => ?_
      have := old t (mem_range.1 ht)
      rw [if_neg (by omega), uEnt_low hPr _ (by omega), mul_zero, sub_zero]
    rw [hsum c]
    by_cases e : c = r
    · rw [if_pos e, if_pos ⟨m, by omega, by rw [e]⟩, h2 c hc, if_neg, mul_one, e, uEnt_low hPr _ (le_refl _), mul_zero,
        add_zero]
      rintro ⟨p, p1, p2⟩
      have := old p p1
      omega
    · rw [if_neg e]
      by_cases e2 : ∃ p, p < m ∧ (P.idxL i).get p = c
      · obtain ⟨p, p1, p2⟩ := e2
        rw [if_pos ⟨p, by omega, p2⟩, h2 c hc, if_pos ⟨p, p1, p2⟩, uEnt_low hPr _ (c := c) (by
          rw [← p2]; exact le_of_lt (old p p1))]
        ring
      · rw [if_neg, h2 c hc, if_neg e2]
        · ring
        · rintro ⟨p, p1, p2⟩
          refine e2 ⟨p, ?_, p2⟩
          by_contra hh
          have : p = m := by omega
          subst this; exact e p2.symm

end ring
end Lis
