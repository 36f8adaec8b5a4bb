import Verif.Model.Convert2
import Verif.Lemmas.Convert1
import Verif.Props.Sort

/-! Lemmas on the conversions of `Model/Convert2.lean`: COO, DIA and JAD to CSR. -/

namespace Lis
open Finset
variable {R : Type}

theorem prefixSums_counted {α : Type} {n : ℕ} {full : List (ℕ × α)} {p : Arr ℕ} (hc : Counted n 1 full p)
    (h0 : p.get 0 = 0) :
    Ok (prefixSums n p) fun q => q.size = p.size ∧ q.get 0 = 0 ∧ Segs n q.get full := by
  have hsz := hc.sz
  unfold prefixSums
  refine Ok_accum (b := 0) (fun c => (byKey c full).length) h0 (fun i hi => hc.cnt i hi) ?_ ?_
  · intro i q hi hq
    simp only [Ok_bind, Ok_rd, Ok_wr]
    exact ⟨by omega, by omega, by omega, trivial⟩
  · intro q hq hv
    refine ⟨hq, by rw [hv 0 (by omega)]; simp, ⟨fun c hc' => ?_⟩⟩
    rw [hv (c + 1) (by omega), hv c (by omega), sum_range_succ]; omega

/-- state of a scatter pass: next free positions, column numbers, values -/
structure Scattering (n : ℕ) (p : ℕ → ℕ) (pre : List (ℕ × ℕ × R)) (s : Arr ℕ × Arr ℕ × Arr R) : Prop where
  isz : n ≤ s.1.size
  xsz : s.2.1.size = p n
  vsz : s.2.2.size = p n
  sc : Scat n p pre s.1.get fun q => (s.2.1.get q, s.2.2.get q)

theorem Scattering.step {n : ℕ} {p : ℕ → ℕ} {full pre : List (ℕ × ℕ × R)} {iw ix : Arr ℕ} {vl : Arr R} {e : ℕ × ℕ × R}
    (h : Scattering n p pre (iw, ix, vl)) (hs : Segs n p full) (hpre : pre ++ [e] <+: full) (he : e.1 < n) :
    e.1 < iw.size ∧ iw.get e.1 < ix.size ∧ iw.get e.1 < vl.size ∧
      Scattering n p (pre ++ [e]) (iw.set e.1 (iw.get e.1 + 1), ix.set (iw.get e.1) e.2.1, vl.set (iw.get e.1) e.2.2) := by
  obtain ⟨h1, h2, h3, h4⟩ := h
  simp only at h1 h2 h3 h4
  have hl := h4.lt_end hs hpre he
  exact ⟨by omega, by omega, by omega, by simpa, by simpa, by simpa, h4.put_arr hs hpre he⟩

theorem Scattering.cols {n np nnz : ℕ} {ptr : Arr ℕ} {full : List (ℕ × ℕ × R)} {s : Arr ℕ × Arr ℕ × Arr R}
    (h : Scattering n ptr.get full s) (hp : n + 1 ≤ ptr.size) (h0 : ptr.get 0 = 0) (hs : Segs n ptr.get full)
    (hn : nnz = ptr.get n) : (⟨np, n, nnz, ptr, s.2.1, s.2.2⟩ : Csc R).Cols full :=
  ⟨hp, h0, hs, hn, by rw [hn]; exact h.xsz.ge, by rw [hn]; exact h.vsz.ge, _, h.sc⟩

/-- reading a keyed list scattered by rows as a CSR matrix -/
theorem Csr.of_cols [AddCommMonoid R] {C : Csr R} {full : List (ℕ × ℕ × R)}
    (h : (⟨C.np, C.n, C.nnz, C.ptr, C.index, C.value⟩ : Csc R).Cols full) (hc : ∀ e ∈ full, e.2.1 < C.np) :
    C.WF ∧ ∀ i j, i < C.n →
      C.entry i j = (full.map fun e => if e.1 = i then (if e.2.1 = j then e.2.2 else 0) else 0).sum := by
  have hw := h.wf hc
  exact ⟨⟨hw.ptr, hw.isz, hw.vsz, hw.idx⟩, fun i j hi => h.entry hi j⟩

/-! ### COO -/

theorem sorted_count {N r m : ℕ} {f : ℕ → ℕ} (hf : ∀ a b, a ≤ b → b < N → f a ≤ f b)
    (hm : m = ((range N).filter fun k => f k < r).card) {k : ℕ} (hk : k < N) : f k < r ↔ k < m := by
  constructor
  · intro h
    have : range (k + 1) ⊆ (range N).filter fun k => f k < r := by
      intro x hx
      simp only [mem_range] at hx
      simp only [mem_filter, mem_range]
      exact ⟨by omega, (hf x k (by omega) hk).trans_lt h⟩
    have := card_le_card this
    rw [card_range] at this
    omega
  · intro h
    by_contra hc
    have : ((range N).filter fun k => f k < r) ⊆ range k := by
      intro x hx
      simp only [mem_filter, mem_range] at hx
      simp only [mem_range]
      by_contra hxk
      exact hc ((hf k x (by omega) hx.1).trans_lt hx.2)
    have := card_le_card this
    rw [card_range] at this
    omega

theorem Coo.WF.rearranged {A : Coo R} (h : A.WF) {g : Equiv.Perm ℕ} (hg : PermutesRange 0 ((A.nnz : ℤ) - 1) g) {s : Arr ℕ × Arr ℕ × Arr R}
    (h1 : A.row.RearrangedBy g s.1) (h2 : A.col.RearrangedBy g s.2.1) (h3 : A.value.RearrangedBy g s.2.2) :
    (⟨A.n, A.nnz, s.1, s.2.1, s.2.2⟩ : Coo R).WF ∧ (∀ k, k < A.nnz → g k < A.nnz) := by
  have hin : ∀ k, k < A.nnz → g k < A.nnz := by
    intro k hk
    by_contra hc
    have := hg (g k) (by omega)
    have := g.injective this
    omega
  refine ⟨⟨by rw [h1.1]; exact h.rsz, by rw [h2.1]; exact h.csz, by rw [h3.1]; exact h.vsz, fun k hk => ?_, fun k hk => ?_⟩, hin⟩
  · show s.1.get k < A.n
    rw [h1.2]; exact h.row _ (hin k hk)
  · show s.2.1.get k < A.n
    rw [h2.2]; exact h.col _ (hin k hk)

theorem Coo.entry_rearranged [AddCommMonoid R] {A : Coo R} {g : Equiv.Perm ℕ} (hin : ∀ k, k < A.nnz → g k < A.nnz)
    (hg : PermutesRange 0 ((A.nnz : ℤ) - 1) g) {s : Arr ℕ × Arr ℕ × Arr R}
    (h1 : A.row.RearrangedBy g s.1) (h2 : A.col.RearrangedBy g s.2.1) (h3 : A.value.RearrangedBy g s.2.2) (i j : ℕ) :
    (⟨A.n, A.nnz, s.1, s.2.1, s.2.2⟩ : Coo R).entry i j = A.entry i j := by
  unfold Coo.entry
  refine sum_bij (fun k _ => g k) ?_ (fun a _ b _ hab => g.injective hab) ?_ ?_
  · intro k hk; rw [mem_range] at hk ⊢; exact hin k hk
  · intro k hk
    refine ⟨g.symm k, ?_, by simp⟩
    rw [mem_range] at hk ⊢
    by_contra hc
    have := hg (g.symm k) (by simp only at hc; omega)
    rw [Equiv.apply_symm_apply] at this
    simp only at hk hc
    omega
  · intro k _
    simp only
    rw [h1.2, h2.2, h3.2]

/-- the output arrays of coo2csr: the sorted elements, with pointers to the first element of each row -/
theorem coo2csr_spec' (junk : ℕ → ℕ → ℕ) (vjunk : ℕ → R) {A : Coo R} (h : A.WF) :
    Ok (coo2csr junk vjunk A) fun r => ∃ g : Equiv.Perm ℕ, PermutesRange 0 ((A.nnz : ℤ) - 1) g ∧
      r.1.n = A.n ∧ r.1.nnz = A.nnz ∧ r.2.n = A.n ∧ r.2.np = A.n ∧ r.2.nnz = A.nnz ∧
      A.row.RearrangedBy g r.1.row ∧ A.col.RearrangedBy g r.1.col ∧ A.value.RearrangedBy g r.1.value ∧
      A.n + 1 ≤ r.2.ptr.size ∧ r.2.ptr.get 0 = 0 ∧ r.2.ptr.get A.n = A.nnz ∧
      (∀ i, i < A.n → r.2.ptr.get i ≤ r.2.ptr.get (i + 1)) ∧
      (∀ i, i < A.n → ∀ k, k < A.nnz → ((r.2.ptr.get i ≤ k ∧ k < r.2.ptr.get (i + 1)) ↔ r.1.row.get k = i)) ∧
      r.2.index.size = A.nnz ∧ r.2.value.size = A.nnz ∧
      (∀ k, k < A.nnz → r.2.index.get k = r.1.col.get k ∧ r.2.value.get k = r.1.value.get k) := by
  have hr := h.rsz
  have hc := h.csz
  have hv := h.vsz
  unfold coo2csr
  simp only [Ok_bind]
  refine (lisSortIid_spec 0 ((A.nnz : ℤ) - 1) (A.row, A.col, A.value) (by omega) (by simp only; omega) (by simp only; omega)
    (by simp only; omega)).mono ?_
  rintro ⟨sr, sc, sv⟩ ⟨g, g1, g2, g3, g4, g5⟩
  simp only at g2 g3 g4 g5
  obtain ⟨hwf', hin⟩ := h.rearranged (s := (sr, sc, sv)) g1 g2 g3 g4
  have hsr := g2.1
  have hsc := g3.1
  have hsv := g4.1
  have hrow : ∀ k, k < A.nnz → sr.get k < A.n := hwf'.row
  refine Ok_fillConst (by simp) fun p0 hp0 hpz => ?_
  simp only [Arr.malloc_size] at hp0
  obtain ⟨em, hem⟩ : ∃ em : ℕ → List (ℕ × ℕ), em = fun k => [(sr.get k, k)] := ⟨_, rfl⟩
  refine Ok_emit (em := em) (fun pre (p : Arr ℕ) => Counted A.n 1 pre p ∧ p.size = A.n + 1 ∧ p.get 0 = 0) (E := [])
    (Nat.zero_le _) ⟨⟨by omega, fun c hc => by simpa using hpz (c + 1) (by omega)⟩, hp0, hpz 0 (by omega)⟩ ?_ ?_
  · rintro k p _ hk ⟨c1, c2, c3⟩ _
    have hrk := hrow k hk
    have hst := c1.step (e := (sr.get k, k)) hrk
    simp only [Ok_bind, Ok_rd, Ok_wr]
    refine ⟨by omega, by omega, by omega, ?_, by simpa, ?_⟩
    · rw [show em k = [(sr.get k, k)] by rw [hem]]; exact hst.2
    · rw [Arr.set_get_ne _ _ (by omega)]; exact c3
  rintro p ⟨c1, c2, c3⟩
  rw [List.nil_append] at c1
  refine (prefixSums_counted c1 c3).mono ?_
  rintro ptr ⟨p1, p2, p3⟩
  have hlen : ∀ c, (byKey c (emits 0 A.nnz em)).length = ((range A.nnz).filter fun k => sr.get k = c).card := by
    intro c
    generalize A.nnz = N
    induction N with
    | zero => simp [emits_self]
    | succ N ih =>
      rw [emits_succ (Nat.zero_le _), byKey_append, List.length_append, ih, range_add_one, filter_insert, hem, byKey_single]
      simp only
      split
      · rw [card_insert_of_notMem (by simp)]; rfl
      · rfl
  have hcard : ∀ i, i ≤ A.n → ptr.get i = ((range A.nnz).filter fun k => sr.get k < i).card := by
    intro i
    induction i with
    | zero => intro _; rw [p2]; simp
    | succ i ih =>
      intro hi
      rw [p3.succ i (by omega), ih (by omega), hlen, ← card_union_of_disjoint]
      · congr 1
        ext k
        simp only [mem_union, mem_filter, mem_range]
        omega
      · rw [disjoint_left]
        intro k hk hk'
        simp only [mem_filter, mem_range] at hk hk'
        omega
  have hmem : ∀ i, i < A.n → ∀ k, k < A.nnz → ((ptr.get i ≤ k ∧ k < ptr.get (i + 1)) ↔ sr.get k = i) := by
    intro i hi k hk
    have hs : ∀ a b, a ≤ b → b < A.nnz → sr.get a ≤ sr.get b := fun a b hab hb => g5 a b (by omega) hab (by omega)
    have e1 := sorted_count hs (hcard i (by omega)) hk
    have e2 := sorted_count hs (hcard (i + 1) (by omega)) hk
    omega
  have hlast : ptr.get A.n = A.nnz := by
    rw [hcard A.n le_rfl, filter_true_of_mem fun k hk => hrow k (by simpa using hk), card_range]
  have hmono : ∀ i, i < A.n → ptr.get i ≤ ptr.get (i + 1) := fun i hi => by rw [p3.succ i hi]; omega
  have hptr : PtrWF A.n A.nnz ptr := ⟨by omega, p2, hmono, hlast⟩
  refine Ok_loop_le (fun i (t : Arr ℕ × Arr R) => t.1.size = A.nnz ∧ t.2.size = A.nnz ∧
    ∀ k, k < ptr.get i → t.1.get k = sc.get k ∧ t.2.get k = sv.get k) (Nat.zero_le _) ⟨rfl, rfl, by rw [p2]; simp⟩ ?_ ?_
  · rintro i ⟨ix, vl⟩ _ hi ⟨t1, t2, t3⟩
    simp only at t1 t2 t3
    simp only [Ok_bind, Ok_rd]
    refine ⟨by omega, by omega, ?_⟩
    refine Ok_loop_le (fun j (t : Arr ℕ × Arr R) => t.1.size = A.nnz ∧ t.2.size = A.nnz ∧
      ∀ k, k < j → t.1.get k = sc.get k ∧ t.2.get k = sv.get k) (hmono i hi) ⟨t1, t2, t3⟩ ?_ fun s h => h
    rintro j ⟨ix, vl⟩ _ hj ⟨t1, t2, t3⟩
    simp only at t1 t2 t3
    have := hptr.lt_nnz hi hj
    simp only [Ok_bind, Ok_rd, Ok_wr, Ok_pure]
    refine ⟨by omega, by omega, by omega, by omega, by simpa, by simpa, fun k hk => ?_⟩
    simp only [Arr.set_get]
    by_cases hkj : k = j
    · subst hkj; simp
    · rw [if_neg hkj, if_neg hkj]; exact t3 k (by omega)
  · rintro ⟨ix, vl⟩ ⟨t1, t2, t3⟩
    simp only at t1 t2 t3
    rw [Ok_pure]
    rw [hlast] at t3
    exact ⟨g, g1, rfl, rfl, rfl, rfl, rfl, g2, g3, g4, by simp only; omega, p2, hlast, hmono, hmem, t1, t2, t3⟩

/-! ### DIA -/

/-- keyed (row; column, value) list of the nonzero elements inside the matrix, in the order of the loops -/
def Dia.nzList [Zero R] [DecidableEq R] (A : Dia R) : List (ℕ × ℕ × R) :=
  emits 0 A.nnd fun d => emits (diaRange A.n (A.index.get d)).1 (diaRange A.n (A.index.get d)).2 fun i =>
    if A.value.get (d * A.n + i) ≠ 0 then [(i, (((i : ℤ) + A.index.get d).toNat, A.value.get (d * A.n + i)))] else []

theorem dia2csr_spec' [Zero R] [DecidableEq R] (junk : ℕ → ℕ → ℕ) (vjunk : ℕ → R) {A : Dia R} (h : A.WF) :
    Ok (dia2csr junk vjunk A) fun C => C.n = A.n ∧ C.np = A.n ∧
      (⟨A.n, A.n, C.nnz, C.ptr, C.index, C.value⟩ : Csc R).Cols A.nzList := by
  have his := h.isz
  have hvs := h.vsz
  have hlt : ∀ d i, d < A.nnd → i < A.n → d * A.n + i < A.nnd * A.n := fun d i hd hi => flat_lt hd hi
  have hrg : ∀ d i, i < (diaRange A.n (A.index.get d)).2 → i < A.n := by
    intro d i hi
    simp only [diaRange] at hi
    omega
  obtain ⟨em, hem⟩ : ∃ em : ℕ → ℕ → List (ℕ × ℕ × R), em = fun d i =>
    if A.value.get (d * A.n + i) ≠ 0 then [(i, (((i : ℤ) + A.index.get d).toNat, A.value.get (d * A.n + i)))] else [] := ⟨_, rfl⟩
  have hnz : A.nzList = emits 0 A.nnd fun d => emits (diaRange A.n (A.index.get d)).1 (diaRange A.n (A.index.get d)).2 (em d) := by
    rw [hem]; rfl
  unfold dia2csr
  simp only [Ok_bind, Ok_wr]
  refine ⟨by simp, ?_⟩
  refine Ok_loop_le (fun i (w : Arr ℕ) => w.size = A.n + 1 ∧ w.get 0 = 0 ∧ ∀ c, c < i → w.get (c + 1) = 0) (Nat.zero_le _)
    ⟨rfl, by simp, by simp⟩ ?_ ?_
  · rintro i w _ hi ⟨w1, w2, w3⟩
    simp only [Ok_wr]
    refine ⟨by omega, by simpa, ?_, fun c hc => ?_⟩
    · rw [Arr.set_get_ne _ _ (by omega)]; exact w2
    · rw [Arr.set_get]
      split
      · rfl
      · exact w3 c (by omega)
  rintro iw0 ⟨hiw0, hz0, hiz⟩
  refine Ok_emit (em := fun d => emits (diaRange A.n (A.index.get d)).1 (diaRange A.n (A.index.get d)).2 (em d))
    (fun pre (iw : Arr ℕ) => Counted A.n 1 pre iw ∧ iw.size = A.n + 1 ∧ iw.get 0 = 0) (E := []) (Nat.zero_le _)
    ⟨⟨by omega, fun c hc => by simpa using hiz c (by omega)⟩, hiw0, hz0⟩ ?_ ?_
  · rintro d iw _ hd hc _
    simp only [Ok_bind, Ok_rd]
    refine ⟨by omega, ?_⟩
    rcases Nat.lt_or_ge (diaRange A.n (A.index.get d)).2 (diaRange A.n (A.index.get d)).1 with hr | hr
    · rw [loop_empty (by omega), Ok_some]
      simpa [emits, show (diaRange A.n (A.index.get d)).2 - (diaRange A.n (A.index.get d)).1 = 0 by omega] using hc
    refine Ok_emit (fun pre (iw : Arr ℕ) => Counted A.n 1 pre iw ∧ iw.size = A.n + 1 ∧ iw.get 0 = 0) hr hc ?_ fun s h => h
    rintro i iw _ hi ⟨hc, hsz, hz⟩ _
    have hin := hrg d i hi
    have h1 := hlt d i hd hin
    simp only [Ok_bind, Ok_rd, Ok_ite, Ok_wr, Ok_pure]
    refine ⟨by omega, fun hv => ?_, fun hv => ?_⟩
    · have hee : em d i = [(i, (((i : ℤ) + A.index.get d).toNat, A.value.get (d * A.n + i)))] := by
        rw [hem]; exact if_pos hv
      rw [hee]
      have hst := hc.step (e := (i, (((i : ℤ) + A.index.get d).toNat, A.value.get (d * A.n + i)))) hin
      refine ⟨by omega, by omega, hst.2, by simpa, ?_⟩
      rw [Arr.set_get_ne _ _ (by omega)]; exact hz
    · have hee : em d i = [] := by rw [hem]; exact if_neg hv
      rw [hee, List.append_nil]; exact ⟨hc, hsz, hz⟩
  rintro iw ⟨hc, hiw, hz⟩
  rw [List.nil_append, ← hnz] at hc
  refine (prefixSums_counted hc hz).mono ?_
  rintro w ⟨w1, w2, hsegs⟩
  simp only [Ok_rd]
  refine ⟨by omega, by simp, ?_⟩
  refine Ok_loop_le (fun i (p : Arr ℕ) => p.size = A.n + 1 ∧ ∀ c, c ≤ i → p.get c = w.get c) (Nat.zero_le _)
    ⟨rfl, fun c hc => by rw [show c = 0 by omega, w2]; simp⟩ ?_ ?_
  · rintro i p _ hi ⟨p1, p2⟩
    simp only [Ok_bind, Ok_rd, Ok_wr]
    refine ⟨by omega, by omega, by simpa, fun c hc => ?_⟩
    rw [Arr.set_get]
    split
    · next hh => rw [hh]
    · exact p2 c (by omega)
  rintro ptr ⟨p1, p2⟩
  have hsegs' : Segs A.n ptr.get A.nzList := ⟨fun c hc => by
    rw [p2 (c + 1) (by omega), p2 c (by omega)]; exact hsegs.succ c hc⟩
  have hpn := p2 A.n le_rfl
  refine Ok_emit (em := fun d => emits (diaRange A.n (A.index.get d)).1 (diaRange A.n (A.index.get d)).2 (em d))
    (fun pre (s : Arr ℕ × Arr ℕ × Arr R) => Scattering A.n ptr.get pre s) (E := []) (Nat.zero_le _)
    ⟨by simp only; omega, by simp only [Arr.malloc_size]; omega, by simp only [Arr.malloc_size]; omega,
      Scat.nil fun c hc => (p2 c (by omega)).symm⟩ ?_ ?_
  · rintro d s _ hd hc hpre
    rw [List.nil_append (emits 0 A.nnd _), ← hnz] at hpre
    simp only [Ok_bind, Ok_rd]
    refine ⟨by omega, ?_⟩
    rcases Nat.lt_or_ge (diaRange A.n (A.index.get d)).2 (diaRange A.n (A.index.get d)).1 with hr | hr
    · rw [loop_empty (by omega), Ok_some]
      simpa [emits, show (diaRange A.n (A.index.get d)).2 - (diaRange A.n (A.index.get d)).1 = 0 by omega] using hc
    refine Ok_emit (fun pre (s : Arr ℕ × Arr ℕ × Arr R) => Scattering A.n ptr.get pre s) hr hc ?_ fun s h => h
    rintro i ⟨iw, ix, vl⟩ _ hi hS hpre'
    have hin := hrg d i hi
    have h1 := hlt d i hd hin
    simp only [Ok_bind, Ok_rd, Ok_ite, Ok_wr, Ok_pure]
    refine ⟨by omega, fun hv => ?_, fun hv => ?_⟩
    · have hp3 := hpre'.trans hpre
      have hee : em d i = [(i, (((i : ℤ) + A.index.get d).toNat, A.value.get (d * A.n + i)))] := by
        rw [hem]; exact if_pos hv
      rw [hee] at hp3 ⊢
      obtain ⟨s1, s2, s3, s4⟩ := hS.step hsegs' hp3 hin
      exact ⟨s1, s1, s3, s2, s4⟩
    · have hee : em d i = [] := by rw [hem]; exact if_neg hv
      rw [hee, List.append_nil]; exact hS
  · rintro ⟨iw, ix, vl⟩ hS
    rw [List.nil_append, ← hnz] at hS
    rw [Ok_pure]
    exact ⟨rfl, rfl, hS.cols (by omega) (by rw [p2 0 (by omega), w2]) hsegs' hpn.symm⟩

/-! ### JAD -/

/-- keyed (row; column, value) list of the stored elements, in the order of the loops -/
def Jad.elems (A : Jad R) : List (ℕ × ℕ × R) :=
  emits 0 A.maxnzr fun d => emits (A.ptr.get d) (A.ptr.get (d + 1)) fun q =>
    [(A.row.get (q - A.ptr.get d), (A.index.get q, A.value.get q))]

theorem Jad.elems_length {A : Jad R} (h : A.WF) : A.elems.length = A.nnz := by
  unfold Jad.elems
  have key : ∀ d, d ≤ A.maxnzr → (emits 0 d fun d => emits (A.ptr.get d) (A.ptr.get (d + 1)) fun q =>
      [(A.row.get (q - A.ptr.get d), (A.index.get q, A.value.get q))]).length = A.ptr.get d := by
    intro d
    induction d with
    | zero => intro _; simp [emits_self, h.ptr.zero]
    | succ d ih =>
      intro hd
      rw [emits_succ (Nat.zero_le _), List.length_append, ih (by omega), emits_length]
      have := h.ptr.mono d (by omega)
      simp; omega
  rw [key A.maxnzr le_rfl, h.ptr.last]

theorem jad2csr_spec' (junk : ℕ → ℕ → ℕ) (vjunk : ℕ → R) {A : Jad R} (h : A.WF) :
    Ok (jad2csr junk vjunk A) fun C => C.n = A.n ∧ C.np = A.np ∧ C.nnz = A.nnz ∧
      (⟨A.np, A.n, C.nnz, C.ptr, C.index, C.value⟩ : Csc R).Cols A.elems := by
  have hps := h.ptr.size
  have hrs := h.rsz
  have his := h.isz
  have hvs := h.vsz
  obtain ⟨em, hem⟩ : ∃ em : ℕ → ℕ → List (ℕ × ℕ × R), em = fun d q =>
    [(A.row.get (q - A.ptr.get d), (A.index.get q, A.value.get q))] := ⟨_, rfl⟩
  have hee : ∀ d q, em d q = [(A.row.get (q - A.ptr.get d), (A.index.get q, A.value.get q))] := fun d q => by rw [hem]
  have hnz : A.elems = emits 0 A.maxnzr fun d => emits (A.ptr.get d) (A.ptr.get (d + 1)) (em d) := by rw [hem]; rfl
  have hkey : ∀ e ∈ A.elems, e.1 < A.n := by
    intro e he
    obtain ⟨d, _, hd, he⟩ := emits_mem.1 he
    obtain ⟨q, hq1, hq2, he⟩ := emits_mem.1 he
    rw [List.mem_singleton] at he
    subst he
    have := h.len d hd
    exact h.row _ (by omega)
  unfold jad2csr
  simp only [Ok_bind]
  refine Ok_fillConst (by simp) fun p0 hp0 hpz => ?_
  simp only [Arr.malloc_size] at hp0
  refine Ok_emit (em := fun d => emits (A.ptr.get d) (A.ptr.get (d + 1)) (em d))
    (fun pre (p : Arr ℕ) => Counted A.n 1 pre p ∧ p.size = A.n + 1 ∧ p.get 0 = 0) (E := []) (Nat.zero_le _)
    ⟨⟨by omega, fun c hc => by simpa using hpz (c + 1) (by omega)⟩, hp0, hpz 0 (by omega)⟩ ?_ ?_
  · rintro d p _ hd hc _
    have hlen := h.len d hd
    have hm := h.ptr.mono d hd
    simp only [Ok_bind, Ok_rd]
    refine ⟨by omega, by omega, ?_⟩
    refine Ok_loop_le (fun q (s : ℕ × Arr ℕ) => s.1 = q - A.ptr.get d ∧ Counted A.n 1 (([] ++ emits 0 d fun d =>
      emits (A.ptr.get d) (A.ptr.get (d + 1)) (em d)) ++ emits (A.ptr.get d) q (em d)) s.2 ∧ s.2.size = A.n + 1 ∧ s.2.get 0 = 0) hm
      ⟨by simp, by rw [emits_self, List.append_nil]; exact hc⟩ ?_ ?_
    · rintro q ⟨k, p⟩ hq1 hq2 ⟨k1, c1, c2, c3⟩
      simp only at k1 c1 c2 c3
      subst k1
      have hr := h.row (q - A.ptr.get d) (by omega)
      have hst := c1.step (e := (A.row.get (q - A.ptr.get d), (A.index.get q, A.value.get q))) hr
      simp only [Ok_bind, Ok_rd, Ok_wr]
      rw [Ok_pure]
      refine ⟨by omega, by omega, by omega, by simp only; omega, ?_, by simpa, ?_⟩
      · rw [emits_succ hq1, ← List.append_assoc, hee]; exact hst.2
      · show (p.set _ _).get 0 = 0
        rw [Arr.set_get_ne _ _ (by omega)]; exact c3
    · rintro ⟨k, p⟩ ⟨-, c⟩
      rw [Ok_pure]; exact c
  rintro p ⟨c1, c2, c3⟩
  rw [List.nil_append, ← hnz] at c1
  refine (prefixSums_counted c1 c3).mono ?_
  rintro ptr ⟨p1, p2, hsegs⟩
  have hpn : ptr.get A.n = A.nnz := by rw [hsegs.last p2 hkey, Jad.elems_length h]
  refine Ok_loop_le (fun i (w : Arr ℕ) => w.size = A.n ∧ ∀ c, c < i → w.get c = ptr.get c) (Nat.zero_le _) ⟨rfl, by simp⟩ ?_ ?_
  · rintro i w _ hi ⟨w1, w2⟩
    simp only [Ok_bind, Ok_rd, Ok_wr]
    refine ⟨by omega, by omega, by simpa, fun c hc => ?_⟩
    rw [Arr.set_get]
    split
    · next hh => rw [hh]
    · exact w2 c (by omega)
  rintro w ⟨w1, w2⟩
  refine Ok_emit (em := fun d => emits (A.ptr.get d) (A.ptr.get (d + 1)) (em d))
    (fun pre (s : Arr ℕ × Arr ℕ × Arr R) => Scattering A.n ptr.get pre s) (E := []) (Nat.zero_le _)
    ⟨w1.ge, by simp [hpn], by simp [hpn], Scat.nil w2⟩ ?_ ?_
  · rintro d s _ hd hc hpre
    rw [List.nil_append (emits 0 A.maxnzr _), ← hnz] at hpre
    have hlen := h.len d hd
    have hm := h.ptr.mono d hd
    simp only [Ok_bind, Ok_rd]
    refine ⟨by omega, by omega, ?_⟩
    refine Ok_loop_le (fun q (s : ℕ × Arr ℕ × Arr ℕ × Arr R) => s.1 = q - A.ptr.get d ∧ Scattering A.n ptr.get (([] ++ emits 0 d fun d =>
      emits (A.ptr.get d) (A.ptr.get (d + 1)) (em d)) ++ emits (A.ptr.get d) q (em d)) s.2) hm
      ⟨by simp, by rw [emits_self, List.append_nil]; exact hc⟩ ?_ ?_
    · rintro q ⟨k, iw, ix, vl⟩ hq1 hq2 ⟨k1, hS⟩
      simp only at k1 hS
      subst k1
      have hr := h.row (q - A.ptr.get d) (by omega)
      have hqn := h.ptr.lt_nnz hd hq2
      have hpre2 : (([] ++ emits 0 d fun d => emits (A.ptr.get d) (A.ptr.get (d + 1)) (em d)) ++ emits (A.ptr.get d) q (em d)) ++
          [(A.row.get (q - A.ptr.get d), (A.index.get q, A.value.get q))] <+: A.elems := by
        refine List.IsPrefix.trans ?_ hpre
        rw [← hee, List.append_assoc (_ ++ _), ← emits_succ hq1]
        exact List.prefix_append_right_inj _ |>.2 (emits_prefix (by omega) (by omega) _)
      obtain ⟨s1, s2, s3, s4⟩ := hS.step hsegs hpre2 hr
      simp only [Ok_bind, Ok_rd, Ok_wr]
      rw [Ok_pure]
      refine ⟨by omega, s1, s1, by omega, s3, by omega, s2, by simp only; omega, ?_⟩
      rw [emits_succ hq1, ← List.append_assoc, hee]; exact s4
    · rintro ⟨k, s⟩ ⟨-, c⟩
      rw [Ok_pure]; exact c
  · rintro ⟨iw, ix, vl⟩ hS
    rw [List.nil_append, ← hnz] at hS
    rw [Ok_pure]
    exact ⟨rfl, rfl, rfl, hS.cols (by omega) p2 hsegs hpn.symm⟩

end Lis
