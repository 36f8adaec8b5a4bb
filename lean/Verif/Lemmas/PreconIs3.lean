import Verif.Lemmas.PreconIs2
import Mathlib.Algebra.BigOperators.Ring.Finset
import Mathlib.Tactic.Ring

/-! I+S preconditioner: rows of the filling pass, the whole construction -/

namespace Lis
open Finset
variable {R : Type} [CommRing R]

/-- elements times a factor -/
def scL (a : R) (l : List (ℕ × R)) : List (ℕ × R) := l.map fun e => (e.1, a * e.2)

omit [CommRing R] in
theorem scL_fst [Mul R] (a : R) (l : List (ℕ × R)) : (l.map fun e => (e.1, a * e.2)).map Prod.fst = l.map Prod.fst := by
  simp [Function.comp_def]

/-- what row `jj` contributes with factor `a` -/
def isPart (A : SplitCsr R) (a : R) (jj : ℕ) : List (ℕ × R) :=
  scL a (A.L.rowList jj) ++ [(jj, a * A.D.get jj)] ++ scL a (A.U.rowList jj)

/-- all contributions to row `i`, in the order of the code -/
def isSeq (A : SplitCsr R) (w : R) (m i : ℕ) : List (ℕ × R) :=
  scL (A.D.get i) (A.L.rowList i) ++ scL (A.D.get i) (A.U.rowList i) ++
    ((A.U.rowList i).take m).flatMap fun e => isPart A (-w * e.2) e.1

theorem isSeq_cols (A : SplitCsr R) (w : R) (m i : ℕ) : (isSeq A w m i).map Prod.fst = isCols A m i := by
  unfold isSeq isCols isPart scL
  simp only [List.map_append, scL_fst, List.map_flatMap, List.map_cons, List.map_nil]

theorem flatMap_prefix {α β : Type} {l l' : List α} (h : l <+: l') (g : α → List β) : l.flatMap g <+: l'.flatMap g := by
  obtain ⟨t, rfl⟩ := h
  rw [List.flatMap_append]
  exact List.prefix_append _ _

theorem isFillRow_spec {A : SplitCsr R} (h : A.Ready) (w : R) (m : ℕ) {b : Arr R} (hb : A.n ≤ b.size) {i : ℕ}
    (hi : i < A.n) {cl cu : ℕ} {PL PU : List (ℕ × R)} {diag0 : Arr R} {s : IsFill R}
    (h0 : FillInv A.n i cl cu PL PU diag0 [] s) (room : Room i cl cu PL PU (isSeq A w m i)) :
    Ok (isFillRow A w m b i s) fun r => FillInv A.n i cl cu PL PU diag0 (isSeq A w m i) r.1 ∧
      r.2 = A.D.get i * b.get i + (((A.U.rowList i).take m).map fun e => -w * e.2 * b.get e.1).sum := by
  have hLn := h.wf.ln
  have hUn := h.wf.un
  have hL := h.wf.lwf
  have hU := h.wf.uwf
  have hds := h.wf.dsz
  have hps := hU.ptr.size
  unfold isFillRow
  simp only [Ok_bind, Ok_rd]
  refine ⟨by omega, by omega, ?_⟩
  obtain ⟨F, hF⟩ : ∃ F, F = isSeq A w m i := ⟨_, rfl⟩
  rw [← hF] at room
  have hF1 : scL (A.D.get i) (A.L.rowList i) ++ scL (A.D.get i) (A.U.rowList i) <+: F := by
    rw [hF]; exact List.prefix_append _ _
  have hF0 : scL (A.D.get i) (A.L.rowList i) <+: F := (List.prefix_append _ _).trans hF1
  refine (rowVals_spec hL (i := i) (by omega)
    (fun l s => FillInv A.n i cl cu PL PU diag0 (scL (A.D.get i) l) s) h0 ?_).mono ?_
  · intro l e s hp hI
    have hcm : e.1 ∈ (A.L.rowList i).map Prod.fst := List.mem_map_of_mem (hp.subset (by simp))
    have hci := h.low hi hcm
    have he : scL (A.D.get i) (l ++ [e]) = scL (A.D.get i) l ++ [(e.1, A.D.get i * e.2)] := by simp [scL]
    rw [he]
    refine isPushL_spec hI _ (by omega) hci ?_ (room.pre ?_)
    · unfold scL
      rw [scL_fst]
      have := hp.map Prod.fst
      rw [List.map_append] at this
      exact nodup_snoc_prefix this (h.ld.rowList (by omega))
    · rw [← he]; exact (hp.map _).trans hF0
  intro s1 hs1
  refine (rowVals_spec hU (i := i) (by omega)
    (fun l s => FillInv A.n i cl cu PL PU diag0 (scL (A.D.get i) (A.L.rowList i) ++ scL (A.D.get i) l) s)
    (by simpa [scL] using hs1) ?_).mono ?_
  · intro l e s hp hI
    have hcm : e.1 ∈ (A.U.rowList i).map Prod.fst := List.mem_map_of_mem (hp.subset (by simp))
    have hci := h.up hi hcm
    have he : scL (A.D.get i) (l ++ [e]) = scL (A.D.get i) l ++ [(e.1, A.D.get i * e.2)] := by simp [scL]
    rw [he, ← List.append_assoc]
    refine isPushU_spec hI _ (by omega) hci.1 ?_ (room.pre ?_)
    · unfold scL
      rw [List.map_append, scL_fst, scL_fst, List.mem_append, not_or]
      refine ⟨fun hh => ?_, ?_⟩
      · have := h.low hi hh; omega
      · have := hp.map Prod.fst
        rw [List.map_append] at this
        exact nodup_snoc_prefix this (h.ud.rowList (by omega))
    · rw [List.append_assoc, ← he]
      exact ((List.prefix_append_right_inj _).2 (hp.map _)).trans hF1
  intro s2 hs2
  refine ⟨by omega, (isRowEnd_spec hU m (by omega)).mono ?_⟩
  rintro e rfl
  refine Ok_takeLoop (l := (A.U.rowList i).take m) (fun l (p : IsFill R × R) =>
    FillInv A.n i cl cu PL PU diag0 (scL (A.D.get i) (A.L.rowList i) ++ scL (A.D.get i) (A.U.rowList i) ++
      l.flatMap fun e => isPart A (-w * e.2) e.1) p.1 ∧
    p.2 = A.D.get i * b.get i + (l.map fun e => -w * e.2 * b.get e.1).sum) rfl (by simpa using hs2) ?_ ?_
  swap
  · rintro p ⟨a1, a2⟩
    exact ⟨a1, a2⟩
  rintro q hq ⟨s, t⟩ ⟨hI, ht⟩
  simp only at hI ht
  have hpre : ((A.U.rowList i).take m).take q ++ [((A.U.rowList i).take m)[q]] <+: (A.U.rowList i).take m := by
    rw [List.take_append_getElem]; exact List.take_prefix _ _
  have hpreF := (List.prefix_append_right_inj (scL (A.D.get i) (A.L.rowList i) ++ scL (A.D.get i) (A.U.rowList i))).2
    (flatMap_prefix hpre fun e => isPart A (-w * e.2) e.1)
  rw [show scL (A.D.get i) (A.L.rowList i) ++ scL (A.D.get i) (A.U.rowList i) ++
    (((A.U.rowList i).take m).flatMap fun e => isPart A (-w * e.2) e.1) = F from hF.symm] at hpreF
  rw [List.flatMap_append, List.flatMap_cons, List.flatMap_nil, List.append_nil] at hpreF
  rw [List.length_take] at hq
  have hk : A.U.ptr.get i + q < A.U.nnz := hU.ptr.lt_nnz (i := i) (by omega) (by rw [hU.row_end (by omega)]; omega)
  have his := hU.isz
  have hvs := hU.vsz
  simp only [List.getElem_take] at hpreF ⊢
  have hcm : ((A.U.rowList i)[q]).1 ∈ (A.U.rowList i).map Prod.fst := List.mem_map_of_mem (List.getElem_mem _)
  rw [Csr.rowList_get] at hcm hpreF ⊢
  simp only at hcm hpreF
  obtain ⟨jj, hjj⟩ : ∃ jj, jj = A.U.index.get (A.U.ptr.get i + q) := ⟨_, rfl⟩
  obtain ⟨u, hu⟩ : ∃ u, u = A.U.value.get (A.U.ptr.get i + q) := ⟨_, rfl⟩
  rw [← hjj] at hcm hpreF ⊢
  rw [← hu] at hpreF ⊢
  have hj := h.up hi hcm
  rw [List.flatMap_append, List.map_append, List.sum_append]
  simp only [List.flatMap_cons, List.flatMap_nil, List.append_nil, List.map_cons, List.map_nil, List.sum_cons,
    List.sum_nil, add_zero]
  obtain ⟨S, hS⟩ : ∃ S, S = scL (A.D.get i) (A.L.rowList i) ++ scL (A.D.get i) (A.U.rowList i) ++
    (((A.U.rowList i).take m).take q).flatMap fun e => isPart A (-w * e.2) e.1 := ⟨_, rfl⟩
  obtain ⟨a, ha⟩ : ∃ a, a = -w * u := ⟨_, rfl⟩
  rw [← List.append_assoc] at hpreF ⊢
  rw [← hS, ← ha] at hpreF ⊢
  rw [← hS] at hI
  simp only [Ok_bind, Ok_rd, ← hjj, ← hu, ← ha]
  refine ⟨by omega, by omega, by omega, ?_⟩
  have hG2 : S ++ scL a (A.L.rowList jj) ++ [(jj, a * A.D.get jj)] ++ scL a (A.U.rowList jj) <+: F := by
    simpa [isPart, List.append_assoc] using hpreF
  have hG1 : S ++ scL a (A.L.rowList jj) ++ [(jj, a * A.D.get jj)] <+: F := (List.prefix_append _ _).trans hG2
  have hG0 : S ++ scL a (A.L.rowList jj) <+: F := (List.prefix_append _ _).trans hG1
  have hsn : ∀ (l : List (ℕ × R)) (e : ℕ × R), scL a (l ++ [e]) = scL a l ++ [(e.1, a * e.2)] := by
    intro l e; simp [scL]
  refine (rowVals_spec hL (i := jj) (by omega)
    (fun l s => FillInv A.n i cl cu PL PU diag0 (S ++ scL a l) s) (by simpa [scL] using hI) ?_).mono ?_
  · intro l e s hp hI
    have hcm : e.1 ∈ (A.L.rowList jj).map Prod.fst := List.mem_map_of_mem (hp.subset (by simp))
    have hci := h.low hj.2 hcm
    rw [hsn, ← List.append_assoc]
    refine isAddLU_spec hI _ (by omega) (room.pre ?_)
    rw [List.append_assoc, ← hsn]
    exact ((List.prefix_append_right_inj _).2 (hp.map _)).trans hG0
  intro s3 hs3
  refine ⟨by omega, (isAddU_spec hs3 _ hj.2 hj.1 (room.pre hG1)).mono ?_⟩
  intro s4 hs4
  refine (rowVals_spec hU (i := jj) (by omega)
    (fun l s => FillInv A.n i cl cu PL PU diag0 (S ++ scL a (A.L.rowList jj) ++ [(jj, a * A.D.get jj)] ++ scL a l) s)
    (by simpa [scL] using hs4) ?_).mono ?_
  · intro l e s hp hI
    have hcm : e.1 ∈ (A.U.rowList jj).map Prod.fst := List.mem_map_of_mem (hp.subset (by simp))
    have hci := h.up hj.2 hcm
    rw [hsn, ← List.append_assoc]
    refine isAddU_spec hI _ (by omega) (by omega) (room.pre ?_)
    rw [List.append_assoc _ _ [_], ← hsn]
    exact ((List.prefix_append_right_inj _).2 (hp.map _)).trans hG2
  intro s5 hs5
  rw [Ok_pure]
  refine ⟨?_, ?_⟩
  · simpa [isPart, List.append_assoc] using hs5
  · simp only; rw [ht, add_assoc]

omit [CommRing R] in
/-- clearing the marks of one triangle -/
theorem isClear_spec {n base : ℕ} {K : List ℕ} {t : ℕ × Arr ℕ × Arr R} {iw : Arr ℕ} (hsz : iw.size = n)
    (hk : t.1 = base + K.length) (hts : t.1 ≤ t.2.1.size) (hix : ∀ q (hq : q < K.length), t.2.1.get (base + q) = K[q])
    (hb : ∀ c ∈ K, c < n) :
    Ok (isClear base t iw) fun iw' => iw'.size = n ∧ ∀ c, c < n → iw'.get c = if c ∈ K then 0 else iw.get c := by
  unfold isClear
  refine Ok_takeLoop (l := K) (fun l (iw' : Arr ℕ) => iw'.size = n ∧ ∀ c, c < n →
    iw'.get c = if c ∈ l then 0 else iw.get c) hk ⟨hsz, by simp⟩ ?_ fun _ h => h
  rintro q hq iw' ⟨a1, a2⟩
  simp only [Ok_bind, Ok_rd, Ok_wr]
  rw [hix q hq]
  have := hb _ (List.getElem_mem hq)
  refine ⟨by omega, by omega, a1, fun c hc => ?_⟩
  rw [Arr.set_get, a2 c hc]
  simp only [List.mem_append, List.mem_singleton]
  by_cases e : c = K[q] <;> simp [e]

/-- rows of the result -/
def isRowL (A : SplitCsr R) (w : R) (m i : ℕ) : List (ℕ × R) := rowAcc (fun c => decide (c < i)) (isSeq A w m i)
def isRowU (A : SplitCsr R) (w : R) (m i : ℕ) : List (ℕ × R) := rowAcc (fun c => decide (i < c)) (isSeq A w m i)

theorem isSeq_bound {A : SplitCsr R} (h : A.Ready) (w : R) (m : ℕ) {i : ℕ} (hi : i < A.n) :
    ∀ c ∈ (isSeq A w m i).map Prod.fst, c < A.n := by
  rw [isSeq_cols]
  intro c hc
  unfold isCols at hc
  simp only [List.mem_append, List.mem_flatMap, List.mem_singleton] at hc
  rcases hc with (hc | hc) | ⟨e, he, hc⟩
  · have := h.low hi hc; omega
  · exact (h.up hi hc).2
  · have hj := h.up hi (List.mem_map_of_mem (List.mem_of_mem_take he))
    rcases hc with (hc | rfl) | hc
    · have := h.low hj.2 hc; omega
    · exact hj.2
    · exact (h.up hj.2 hc).2

theorem isBuild_spec (junk : ℕ → ℕ → ℕ) (vjunk : ℕ → ℕ → R) {A : SplitCsr R} (h : A.Ready) (w : R) (m : ℕ) {b : Arr R}
    (hb : A.n ≤ b.size) :
    Ok (isBuild junk vjunk A w m b) fun r => r.1.n = A.n ∧ r.1.np = A.n ∧
      r.1.L.n = A.n ∧ r.1.L.np = A.n ∧ r.1.U.n = A.n ∧ r.1.U.np = A.n ∧ r.1.D.size = A.n ∧
      r.1.L.Rows (isRowL A w m) ∧ r.1.U.Rows (isRowU A w m) ∧
      (∀ i, i < A.n → r.1.D.get i = A.D.get i + ksum (isSeq A w m i) i) ∧
      r.2.size = A.n ∧ ∀ i, i < A.n → r.2.get i = A.D.get i * b.get i +
        (((A.U.rowList i).take m).map fun e => -w * e.2 * b.get e.1).sum := by
  have hds := h.wf.dsz
  have hLlen : ∀ i, (keysOf ((isCols A m i).filter (· < i))).length = (isRowL A w m i).length := by
    intro i; rw [isRowL, rowAcc_length, keysP, isSeq_cols]
  have hUlen : ∀ i, (keysOf ((isCols A m i).filter (i < ·))).length = (isRowU A w m i).length := by
    intro i; rw [isRowU, rowAcc_length, keysP, isSeq_cols]
  unfold isBuild
  simp only [Ok_bind]
  -- counting
  refine Ok_loop_le (fun i (s : Arr ℕ × Arr ℕ × Arr ℕ × Arr ℕ) =>
    s.1.size = A.n + 1 ∧ s.2.1.size = A.n + 1 ∧ s.2.2.1.size = A.n ∧ s.2.2.2.size = A.n ∧
    (∀ c, c < A.n → s.2.2.1.get c = 0) ∧
    (∀ r, r < i → s.1.get (r + 1) = (isRowL A w m r).length) ∧
    (∀ r, r < i → s.2.1.get (r + 1) = (isRowU A w m r).length)) (Nat.zero_le _)
    ⟨rfl, rfl, rfl, rfl, fun _ _ => rfl, fun r hr => by omega, fun r hr => by omega⟩ ?_ ?_
  · rintro i ⟨lp, up, iw, iw2⟩ - hi ⟨a1, a2, a3, a4, a5, a6, a7⟩
    simp only at a1 a2 a3 a4 a5 a6 a7
    simp only [Ok_bind]
    refine (isCountRow_spec h m hi a3 a4 a5).mono ?_
    rintro ⟨⟨nl, nu⟩, iw', iw2'⟩ ⟨b1, b2, b3, b4, b5⟩
    simp only at b1 b2 b3 b4 b5
    simp only [Ok_wr]
    rw [Ok_pure]
    refine ⟨by omega, by omega, by simpa using a1, by simpa using a2, b3, b4, b5, fun r hr => ?_, fun r hr => ?_⟩
    · simp only [Arr.set_get]
      by_cases e : r = i
      · subst e; rw [if_pos rfl, b1, hLlen]
      · rw [if_neg (by omega)]; exact a6 r (by omega)
    · simp only [Arr.set_get]
      by_cases e : r = i
      · subst e; rw [if_pos rfl, b2, hUlen]
      · rw [if_neg (by omega)]; exact a7 r (by omega)
  rintro ⟨lp, up, iw, iw2⟩ ⟨a1, a2, -, -, -, a6, a7⟩
  simp only at a1 a2 a6 a7
  simp only [Ok_wr]
  refine ⟨by omega, by omega, ?_⟩
  -- prefix sums
  refine Ok_loop_le (fun i (s : Arr ℕ × Arr ℕ) =>
    s.1.size = A.n + 1 ∧ s.2.size = A.n + 1 ∧
    (∀ r, r ≤ i → s.1.get r = (concatRows r (isRowL A w m)).length) ∧
    (∀ r, r ≤ i → s.2.get r = (concatRows r (isRowU A w m)).length) ∧
    (∀ r, i ≤ r → r < A.n → s.1.get (r + 1) = (isRowL A w m r).length) ∧
    (∀ r, i ≤ r → r < A.n → s.2.get (r + 1) = (isRowU A w m r).length)) (Nat.zero_le _) ?_ ?_ ?_
  · refine ⟨a1, a2, ?_, ?_, ?_, ?_⟩
    · intro r hr; obtain rfl : r = 0 := by omega
      simp
    · intro r hr; obtain rfl : r = 0 := by omega
      simp
    · intro r _ hr
      simp only [Arr.set_get]; rw [if_neg (by omega)]; exact a6 r hr
    · intro r _ hr
      simp only [Arr.set_get]; rw [if_neg (by omega)]; exact a7 r hr
  · rintro i ⟨lp, up⟩ - hi ⟨b1, b2, b3, b4, b5, b6⟩
    simp only at b1 b2 b3 b4 b5 b6
    simp only [Ok_bind, Ok_rd, Ok_wr]
    rw [Ok_pure]
    refine ⟨by omega, by omega, by omega, by omega, by omega, by omega, b1, b2, ?_, ?_, ?_, ?_⟩
    · intro r hr
      simp only [Arr.set_get]
      by_cases e : r = i + 1
      · subst e
        rw [if_pos rfl, b5 i le_rfl hi, b3 i le_rfl, concatRows_succ, List.length_append]; omega
      · rw [if_neg e]; exact b3 r (by omega)
    · intro r hr
      simp only [Arr.set_get]
      by_cases e : r = i + 1
      · subst e
        rw [if_pos rfl, b6 i le_rfl hi, b4 i le_rfl, concatRows_succ, List.length_append]; omega
      · rw [if_neg e]; exact b4 r (by omega)
    · intro r hr hrn
      simp only [Arr.set_get]; rw [if_neg (by omega)]; exact b5 r (by omega) hrn
    · intro r hr hrn
      simp only [Arr.set_get]; rw [if_neg (by omega)]; exact b6 r (by omega) hrn
  rintro ⟨lptr, uptr⟩ ⟨b1, b2, b3, b4, -, -⟩
  simp only at b1 b2 b3 b4
  simp only [Ok_rd]
  refine ⟨by omega, by omega, ?_⟩
  rw [b3 A.n le_rfl, b4 A.n le_rfl]
  -- diag
  refine Ok_loop_fill (fun i => A.D.get i) ?_ ?_
  · intro i y _ hi hy h1 h2
    simp only [Arr.malloc_size] at hy
    simp only [Ok_bind, Ok_rd, Ok_wr]
    exact ⟨by omega, by omega, trivial⟩
  intro diag d1 d2 _
  simp only [Arr.malloc_size] at d1
  -- filling
  refine Ok_loop_le (fun i (p : IsFill R × Arr R) =>
    (∃ kl, Pushed (concatRows A.n (isRowL A w m)).length (concatRows i (isRowL A w m)) (kl, p.1.lo.2)) ∧
    (∃ ku, Pushed (concatRows A.n (isRowU A w m)).length (concatRows i (isRowU A w m)) (ku, p.1.up.2)) ∧
    p.1.diag.size = A.n ∧ (∀ r, r < i → p.1.diag.get r = A.D.get r + ksum (isSeq A w m r) r) ∧
    (∀ r, i ≤ r → r < A.n → p.1.diag.get r = A.D.get r) ∧
    p.1.iw.size = A.n ∧ (∀ c, c < A.n → p.1.iw.get c = 0) ∧
    p.2.size = A.n ∧ ∀ r, r < i → p.2.get r = A.D.get r * b.get r +
        (((A.U.rowList r).take m).map fun e => -w * e.2 * b.get e.1).sum) (Nat.zero_le _) ?_ ?_ ?_
  · exact ⟨⟨0, ⟨rfl, rfl, rfl, Filled.nil _⟩⟩, ⟨0, ⟨rfl, rfl, rfl, Filled.nil _⟩⟩, d1, fun r hr => by omega,
      fun r _ hr => d2 r (by omega) hr, rfl, fun _ _ => rfl, rfl, fun r hr => by omega⟩
  · rintro i ⟨⟨⟨kl0, lo⟩, ⟨ku0, up⟩, dg, iw⟩, pb⟩ - hi ⟨⟨kl, hkl⟩, ⟨ku, hku⟩, c3, c4, c5, c6, c7, c8, c9⟩
    simp only at hkl hku c3 c4 c5 c6 c7 c8 c9
    have hkl' : kl = (concatRows i (isRowL A w m)).length := hkl.pos
    have hku' : ku = (concatRows i (isRowU A w m)).length := hku.pos
    simp only [Ok_bind, Ok_rd]
    refine ⟨by omega, by omega, ?_⟩
    rw [b3 i (by omega), b4 i (by omega), ← hkl', ← hku']
    have hroom : Room i (concatRows A.n (isRowL A w m)).length (concatRows A.n (isRowU A w m)).length
        (concatRows i (isRowL A w m)) (concatRows i (isRowU A w m)) (isSeq A w m i) := by
      constructor
      · have := (concatRows_prefix (show i + 1 ≤ A.n from hi) (isRowL A w m)).length_le
        rw [concatRows_succ, List.length_append, isRowL, rowAcc_length] at this
        exact this
      · have := (concatRows_prefix (show i + 1 ≤ A.n from hi) (isRowU A w m)).length_le
        rw [concatRows_succ, List.length_append, isRowU, rowAcc_length] at this
        exact this
    have hinit : FillInv A.n i (concatRows A.n (isRowL A w m)).length (concatRows A.n (isRowU A w m)).length
        (concatRows i (isRowL A w m)) (concatRows i (isRowU A w m)) dg []
        (⟨(kl, lo), (ku, up), dg, iw⟩ : IsFill R) := by
      refine ⟨⟨by simpa [rowAcc, keysP] using hkl, fun q hq => by simp [keysP] at hq⟩,
        ⟨by simpa [rowAcc, keysP] using hku, fun q hq => by simp [keysP] at hq⟩, c3, by simp [ksum], fun _ _ => rfl, c6,
        fun c hc _ => c7 c hc⟩
    refine (isFillRow_spec h w m hb hi hinit hroom).mono ?_
    rintro ⟨s, t⟩ ⟨hs, ht⟩
    simp only at hs ht
    obtain ⟨hlo, hup, e3, e4, e5, e6, e7⟩ := hs
    have hbnd := isSeq_bound h w m hi
    have hclear : ∀ (p : ℕ → Bool) (cap : ℕ) (P : List (ℕ × R)) (t : ℕ × Arr ℕ × Arr R) (base : ℕ),
        Pushed cap (P ++ rowAcc p (isSeq A w m i)) t → base = P.length → P.length + (keysP p (isSeq A w m i)).length ≤ cap →
        t.1 = base + (keysP p (isSeq A w m i)).length ∧ t.1 ≤ t.2.1.size ∧
        ∀ q (hq : q < (keysP p (isSeq A w m i)).length), t.2.1.get (base + q) = (keysP p (isSeq A w m i))[q] := by
      rintro p cap P t base hp rfl hr
      have h1 := hp.pos
      have h2 := hp.isz
      rw [List.length_append, rowAcc_length] at h1
      refine ⟨h1, by omega, fun q hq => ?_⟩
      have := hp.fil (P.length + q) (by rw [List.length_append, rowAcc_length]; omega)
      rw [List.getElem_append_right (by omega)] at this
      have := congrArg Prod.fst this
      simpa [rowAcc] using this
    obtain ⟨f1, f2, f3⟩ := hclear _ _ _ _ kl hlo.st hkl' hroom.lo
    obtain ⟨g1, g2, g3⟩ := hclear _ _ _ _ ku hup.st hku' hroom.up
    refine (isClear_spec e6 f1 f2 f3 fun c hc => hbnd c (keysP_mem.1 hc).1).mono ?_
    rintro iw1 ⟨i1, i2⟩
    refine (isClear_spec i1 g1 g2 g3 fun c hc => hbnd c (keysP_mem.1 hc).1).mono ?_
    rintro iw2 ⟨j1, j2⟩
    simp only [Ok_wr]
    rw [Ok_pure]
    refine ⟨by omega, ⟨s.lo.1, ?_⟩, ⟨s.up.1, ?_⟩, e3, fun r hr => ?_, fun r hr hrn => ?_, j1, fun c hc => ?_, c8, fun r hr => ?_⟩
    · rw [concatRows_succ]; exact hlo.st
    · rw [concatRows_succ]; exact hup.st
    · simp only
      by_cases e : r = i
      · subst e; rw [e4, c5 r le_rfl hi]
      · rw [e5 r e]; exact c4 r (by omega)
    · simp only
      rw [e5 r (by omega)]; exact c5 r (by omega) hrn
    · simp only
      rw [j2 c hc, i2 c hc]
      by_cases hc1 : c ∈ keysP (fun c => decide (i < c)) (isSeq A w m i)
      · rw [if_pos hc1]
      by_cases hc2 : c ∈ keysP (fun c => decide (c < i)) (isSeq A w m i)
      · rw [if_neg hc1, if_pos hc2]
      rw [if_neg hc1, if_neg hc2]
      refine e7 c hc ?_
      by_cases hci : c = i
      · exact .inl hci
      · refine .inr fun hm => ?_
        rcases Nat.lt_or_gt_of_ne hci with hlt | hgt
        · exact hc2 (keysP_mem.2 ⟨hm, by simpa using hlt⟩)
        · exact hc1 (keysP_mem.2 ⟨hm, by simpa using hgt⟩)
    · simp only [Arr.set_get]
      by_cases e : r = i
      · subst e; rw [if_pos rfl, ht]
      · rw [if_neg e]; exact c9 r (by omega)
  rintro ⟨s, pb⟩ ⟨⟨kl, hkl⟩, ⟨ku, hku⟩, c3, c4, -, -, -, c8, c9⟩
  simp only at hkl hku c3 c4 c8 c9
  rw [Ok_pure]
  refine ⟨rfl, rfl, rfl, rfl, rfl, rfl, c3, ⟨?_, ?_, rfl, ?_, ?_, ?_⟩, ⟨?_, ?_, rfl, ?_, ?_, ?_⟩, c4, c8, c9⟩
  · simp only; omega
  · exact b3
  · simp only; rw [hkl.isz]
  · simp only; rw [hkl.vsz]
  · exact hkl.fil
  · simp only; omega
  · exact b4
  · simp only; rw [hku.isz]
  · simp only; rw [hku.vsz]
  · exact hku.fil

end Lis
