import Verif.Lemmas.Convert2b
import Verif.Model.ConvertVbr

/-! Lemmas on the conversion VBR → CSR. -/

namespace Lis
open Finset
variable {R : Type}

theorem PtrWF.unique {m n : ℕ} {p : Arr ℕ} (h : PtrWF m n p) {a b r : ℕ} (ha : a < m) (hb : b < m)
    (ha1 : p.get a ≤ r) (ha2 : r < p.get (a + 1)) (hb1 : p.get b ≤ r) (hb2 : r < p.get (b + 1)) : a = b := by
  rcases Nat.lt_trichotomy a b with hh | hh | hh
  · have := h.mono' (i := a + 1) (j := b) hh (by omega); omega
  · exact hh
  · have := h.mono' (i := b + 1) (j := a) hh (by omega); omega

/-- height of block row `bi` -/
def Vbr.ht (A : Vbr R) (bi : ℕ) : ℕ := A.row.get (bi + 1) - A.row.get bi
/-- width of block `bc` -/
def Vbr.wd (A : Vbr R) (bc : ℕ) : ℕ := A.col.get (A.bindex.get bc + 1) - A.col.get (A.bindex.get bc)

def Vbr.cell [Zero R] [DecidableEq R] (A : Vbr R) (bi bc j i : ℕ) : List (ℕ × ℕ × R) :=
  if A.value.get (A.ptr.get bc + j * A.ht bi + i) ≠ 0 then
    [(A.row.get bi + i, (A.col.get (A.bindex.get bc) + j, A.value.get (A.ptr.get bc + j * A.ht bi + i)))] else []

def Vbr.nzList [Zero R] [DecidableEq R] (A : Vbr R) : List (ℕ × ℕ × R) :=
  emits 0 A.nr fun bi => emits (A.bptr.get bi) (A.bptr.get (bi + 1)) fun bc => emits 0 (A.wd bc) fun j =>
    emits 0 (A.ht bi) fun i => A.cell bi bc j i

def Vbr.nzRow [Zero R] [DecidableEq R] (A : Vbr R) (bi i : ℕ) : List (ℕ × R) :=
  emits (A.bptr.get bi) (A.bptr.get (bi + 1)) fun bc => emits 0 (A.wd bc) fun j =>
    if A.value.get (A.ptr.get bc + j * A.ht bi + i) ≠ 0 then
      [(A.col.get (A.bindex.get bc) + j, A.value.get (A.ptr.get bc + j * A.ht bi + i))] else []

/-- the elements of row `r` -/
def Vbr.nzOf [Zero R] [DecidableEq R] (A : Vbr R) (r : ℕ) : List (ℕ × R) :=
  emits 0 A.nr fun bi => if A.row.get bi ≤ r ∧ r < A.row.get (bi + 1) then A.nzRow bi (r - A.row.get bi) else []

theorem Vbr.nzOf_eq [Zero R] [DecidableEq R] {A : Vbr R} (h : PtrWF A.nr A.n A.row) {bi i : ℕ} (hbi : bi < A.nr)
    (hi : i < A.ht bi) : A.nzOf (A.row.get bi + i) = A.nzRow bi i := by
  unfold Vbr.ht at hi
  unfold Vbr.nzOf
  rw [emits_only (k := bi) (Nat.zero_le _) hbi]
  · rw [if_pos (by omega), Nat.add_sub_cancel_left]
  · intro l _ hl hne
    rw [if_neg]
    rintro ⟨h1, h2⟩
    exact hne (h.unique hl hbi h1 h2 (by omega) (by omega))

theorem Vbr.byKey_nzList [Zero R] [DecidableEq R] {A : Vbr R} (h : PtrWF A.nr A.n A.row) {bi i : ℕ} (hbi : bi < A.nr)
    (hi : i < A.ht bi) : byKey (A.row.get bi + i) A.nzList = A.nzRow bi i := by
  have hcell : ∀ bi' bc j i', bi' < A.nr → i' < A.ht bi' → byKey (A.row.get bi + i) (A.cell bi' bc j i') =
      if bi' = bi ∧ i' = i then (if A.value.get (A.ptr.get bc + j * A.ht bi + i) ≠ 0 then
      [(A.col.get (A.bindex.get bc) + j, A.value.get (A.ptr.get bc + j * A.ht bi + i))] else []) else [] := by
    intro bi' bc j i' hb' hi'
    unfold Vbr.cell
    by_cases hc : bi' = bi ∧ i' = i
    · rw [if_pos hc, hc.1, hc.2]
      split
      · rw [byKey_single]; simp
      · rfl
    · rw [if_neg hc]
      split
      · rw [byKey_single, if_neg]
        intro hh
        simp only at hh
        have : bi' = bi := by
          unfold Vbr.ht at hi hi'
          exact h.unique (r := A.row.get bi + i) hb' hbi (by omega) (by omega) (by omega) (by omega)
        subst this
        exact hc ⟨rfl, by omega⟩
      · rfl
  unfold Vbr.nzList Vbr.nzRow
  rw [byKey_emits, emits_only (k := bi) (Nat.zero_le _) hbi]
  · simp only [byKey_emits]
    refine emits_congr fun bc _ _ => emits_congr fun j _ _ => ?_
    rw [emits_only (k := i) (Nat.zero_le _) hi]
    · rw [hcell _ _ _ _ hbi hi, if_pos ⟨rfl, rfl⟩]
    · intro l _ hl hne
      rw [hcell _ _ _ _ hbi hl, if_neg (by tauto)]
  · intro b _ hb hne
    simp only [byKey_emits]
    refine emits_nil fun bc _ _ => emits_nil fun j _ _ => emits_nil fun l _ hl => ?_
    rw [hcell _ _ _ _ hb hl, if_neg (by tauto)]

theorem Vbr.pos_lt {A : Vbr R} (h : A.WF) {bi bc i j : ℕ} (hbi : bi < A.nr) (h1 : A.bptr.get bi ≤ bc)
    (h2 : bc < A.bptr.get (bi + 1)) (hi : i < A.ht bi) (hj : j < A.wd bc) :
    A.ptr.get bc + j * A.ht bi + i < A.value.size := by
  have hv : A.ptr.get bc + A.wd bc * A.ht bi ≤ A.value.size := h.vsz bi hbi bc h1 h2
  have h3 := Nat.mul_le_mul_right (A.ht bi) (show j + 1 ≤ A.wd bc from hj)
  rw [Nat.add_mul] at h3
  omega

theorem vbr2csrRow_spec [Zero R] [DecidableEq R] {A : Vbr R} (h : A.WF) {bi i cap : ℕ} (hbi : bi < A.nr)
    (hi : i < A.ht bi)
    {E : List (ℕ × R)} {s : ℕ × Arr ℕ × Arr R} (hP : Pushed cap E s) (hcap : (E ++ A.nzRow bi i).length ≤ cap) :
    Ok (vbr2csrRow A bi (A.ht bi) i s) (Pushed cap (E ++ A.nzRow bi i)) := by
  have hp := h.bptr.size
  have hcs := h.col.size
  unfold vbr2csrRow
  simp only [Ok_bind, Ok_rd]
  refine ⟨by omega, by omega, ?_⟩
  unfold Vbr.nzRow at hcap ⊢
  refine Ok_pushLoop (h.bptr.mono bi hbi) hP hcap ?_ fun s hs => hs
  intro bc k ix vl F hb1 hbc hF hroom
  have hbn := h.bptr.lt_nnz hbi hbc
  have hx := h.isz
  have hx2 := h.psz
  have hx3 := h.idx bc hbn
  simp only [Ok_bind, Ok_rd]
  refine ⟨by omega, by omega, by omega, ?_⟩
  refine Ok_pushLoop (Nat.zero_le _) hF hroom ?_ fun s hs => hs
  intro j k ix vl F _ hj hF hroom
  have := A.pos_lt h hbi hb1 hbc hi hj
  obtain ⟨q1, q2⟩ := hF.pushIf _ hroom
  simp only [Ok_bind, Ok_rd, Ok_wr, Ok_pure, Ok_ite]
  refine ⟨by omega, this, fun hv => ?_, fun hv => q2 hv⟩
  obtain ⟨a, b, c⟩ := q1 hv
  exact ⟨b, a, c⟩

theorem vbr2csr_spec' [Zero R] [DecidableEq R] (junk : ℕ → ℕ → ℕ) (vjunk : ℕ → R) {A : Vbr R} (h : A.WF) :
    Ok (vbr2csr junk vjunk A) fun C => C.n = A.n ∧ C.np = A.n ∧ C.Rows A.nzOf := by
  have hp := h.bptr.size
  have hrs := h.row.size
  have hcs := h.col.size
  have hrn : ∀ b, b ≤ A.nr → A.row.get b ≤ A.n := fun b hb => h.row.le_nnz hb
  unfold vbr2csr
  simp only [Ok_bind]
  refine Ok_loop_le (fun b (p : Arr ℕ) => p.size = A.n + 1 ∧ ∀ k, k < A.row.get b → p.get (k + 1) = 0) (Nat.zero_le _)
    ⟨by simp, by rw [h.row.zero]; simp⟩ ?_ ?_
  · rintro b p _ hb ⟨g1, g2⟩
    simp only [Ok_bind, Ok_rd]
    refine ⟨by omega, by omega, ?_⟩
    have hm := h.row.mono b hb
    have hn := hrn (b + 1) hb
    refine Ok_loop_le (fun i (p : Arr ℕ) => p.size = A.n + 1 ∧ ∀ k, k < A.row.get b + i → p.get (k + 1) = 0) (Nat.zero_le _)
      ⟨g1, g2⟩ ?_ ?_
    · rintro i p _ hi ⟨g1, g2⟩
      rw [Ok_wr]
      refine ⟨by omega, by simpa, fun k hk => ?_⟩
      rw [Arr.set_get]; split
      · rfl
      · exact g2 k (by omega)
    · rintro p ⟨g1, g2⟩
      exact ⟨g1, fun k hk => g2 k (by omega)⟩
  rintro p0 ⟨hp0, hpz⟩
  rw [h.row.last] at hpz
  refine Ok_emit (em := fun bi => emits (A.bptr.get bi) (A.bptr.get (bi + 1)) fun bc => emits 0 (A.wd bc) fun j =>
    emits 0 (A.ht bi) fun i => A.cell bi bc j i)
    (fun pre (p : Arr ℕ) => Counted A.n 1 pre p ∧ p.size = A.n + 1) (E := [])
    (Nat.zero_le _) ⟨⟨by omega, fun c hc => by simpa using hpz c hc⟩, hp0⟩ ?_ ?_
  · intro bi p _ hbi hI _
    simp only [Ok_bind, Ok_rd]
    refine ⟨by omega, by omega, by omega, by omega, ?_⟩
    refine Ok_emit (em := fun bc => emits 0 (A.wd bc) fun j => emits 0 (A.ht bi) fun i => A.cell bi bc j i)
      (fun pre (p : Arr ℕ) => Counted A.n 1 pre p ∧ p.size = A.n + 1) (h.bptr.mono bi hbi) hI ?_ fun s hs => hs
    intro bc p hbc1 hbc hI _
    have hbn := h.bptr.lt_nnz hbi hbc
    have hx := h.isz
    have hx2 := h.psz
    have hx3 := h.idx bc hbn
    simp only [Ok_bind, Ok_rd]
    refine ⟨by omega, by omega, by omega, ?_⟩
    refine Ok_emit (em := fun j => emits 0 (A.ht bi) fun i => A.cell bi bc j i)
      (fun pre (p : Arr ℕ) => Counted A.n 1 pre p ∧ p.size = A.n + 1) (Nat.zero_le _) hI ?_ fun s hs => hs
    intro j p _ hj hI _
    refine Ok_emit (em := fun i => A.cell bi bc j i)
      (fun pre (p : Arr ℕ) => Counted A.n 1 pre p ∧ p.size = A.n + 1) (Nat.zero_le _) hI ?_ fun s hs => hs
    rintro i p _ hi ⟨c1, c2⟩ _
    have hps := A.pos_lt h hbi hbc1 hbc hi hj
    have hrb := hrn (bi + 1) hbi
    have hi' : i < A.row.get (bi + 1) - A.row.get bi := hi
    simp only [Ok_bind, Ok_rd, Ok_wr, Ok_pure, Ok_ite]
    refine ⟨by omega, hps, fun hv => ?_, fun hv => ?_⟩
    · have hst := c1.step (e := (A.row.get bi + i, (A.col.get (A.bindex.get bc) + j, A.value.get (A.ptr.get bc + j * A.ht bi + i)))) (by simp only; omega)
      rw [show A.cell bi bc j i = [(A.row.get bi + i, (A.col.get (A.bindex.get bc) + j, A.value.get (A.ptr.get bc + j * A.ht bi + i)))] by
        unfold Vbr.cell; exact if_pos hv]
      exact ⟨by omega, by omega, hst.2, by simpa⟩
    · rw [show A.cell bi bc j i = [] by unfold Vbr.cell; exact if_neg hv, List.append_nil]
      exact ⟨c1, c2⟩
  rintro p ⟨c1, c2⟩
  rw [List.nil_append] at c1
  change Counted A.n 1 A.nzList p at c1
  rw [Ok_wr]
  refine ⟨by omega, ?_⟩
  have c1' : Counted A.n 1 A.nzList (p.set 0 0) := ⟨by simp; omega, fun c hc => by
    rw [Arr.set_get_ne _ _ (by omega)]; exact c1.cnt c hc⟩
  change Ok (prefixSums A.n (p.set 0 0)) _
  refine (prefixSums_counted c1' (Arr.set_get_self _ _ _)).mono ?_
  rintro ptr ⟨p1, p2, p3⟩
  rw [Arr.set_size] at p1
  obtain ⟨L, hL⟩ : ∃ L : ℕ → List (ℕ × R), L = A.nzOf := ⟨_, rfl⟩
  have hbk : ∀ r, r < A.n → byKey r A.nzList = L r := by
    intro r hr
    obtain ⟨b, hb, h1, h2⟩ := h.row.locate hr
    have hht : r - A.row.get b < A.ht b := by unfold Vbr.ht; omega
    have e1 := A.byKey_nzList h.row hb hht
    have e2 := A.nzOf_eq h.row hb hht
    rw [show A.row.get b + (r - A.row.get b) = r by omega] at e1 e2
    rw [e1, hL, e2]
  have hptr : ∀ i, i ≤ A.n → ptr.get i = (concatRows i L).length := by
    intro i
    induction i with
    | zero => intro _; rw [p2]; rfl
    | succ i ih =>
      intro hi
      have := p3.succ i hi
      rw [hbk i hi] at this
      rw [this, ih (by omega), concatRows_succ, List.length_append]
  simp only [Ok_rd]
  refine ⟨by omega, ?_⟩
  have hcap : ∀ i, i ≤ A.n → (concatRows i L).length ≤ ptr.get A.n := by
    intro i hi
    rw [hptr A.n le_rfl, ← emits_zero, ← emits_zero]
    exact (emits_prefix hi (Nat.zero_le _) L).length_le
  refine Ok_loop_le (fun bi (s : Arr ℕ × Arr R) => ∃ k, Pushed (ptr.get A.n) (concatRows (A.row.get bi) L) (k, s))
    (Nat.zero_le _) ⟨0, ?_⟩ ?_ ?_
  · rw [h.row.zero]
    exact ⟨rfl, rfl, rfl, Filled.nil _⟩
  · rintro bi s _ hbi ⟨k, hs⟩
    simp only [Ok_bind, Ok_rd]
    refine ⟨by omega, by omega, ?_⟩
    have hm := h.row.mono bi hbi
    have hn := hrn (bi + 1) hbi
    refine Ok_loop_le (fun i (s : Arr ℕ × Arr R) => ∃ k, Pushed (ptr.get A.n) (concatRows (A.row.get bi + i) L) (k, s))
      (Nat.zero_le _) ⟨k, hs⟩ ?_ ?_
    · rintro i s _ hi ⟨k, hs⟩
      simp only [Ok_bind, Ok_rd]
      refine ⟨by omega, ?_⟩
      have hi' : i < A.ht bi := hi
      have hrow : L (A.row.get bi + i) = A.nzRow bi i := by rw [hL, A.nzOf_eq h.row hbi hi']
      have hP : Pushed (ptr.get A.n) (concatRows (A.row.get bi + i) L) (ptr.get (A.row.get bi + i), s.1, s.2) :=
        ⟨hptr _ (by omega), hs.isz, hs.vsz, hs.fil⟩
      have hc := hcap (A.row.get bi + i + 1) (by omega)
      rw [concatRows_succ, hrow] at hc
      refine (vbr2csrRow_spec h hbi hi' hP hc).mono ?_
      rintro ⟨k', ix, vl⟩ ht
      rw [Ok_pure]
      refine ⟨k', ?_⟩
      rw [← Nat.add_assoc, concatRows_succ, hrow]; exact ht
    · rintro s ⟨k, hs⟩
      refine ⟨k, ?_⟩
      rw [show A.row.get bi + (A.row.get (bi + 1) - A.row.get bi) = A.row.get (bi + 1) by omega] at hs
      exact hs
  · rintro s ⟨k, hs⟩
    rw [h.row.last] at hs
    rw [Ok_pure]
    refine ⟨rfl, rfl, ?_⟩
    rw [← hL]
    exact ⟨by simp only; omega, hptr, hptr _ le_rfl, hs.isz.ge, hs.vsz.ge, hs.fil⟩

theorem Vbr.nzOf_sum [AddCommMonoid R] [DecidableEq R] {A : Vbr R} (i j : ℕ) :
    ((A.nzOf i).map fun e => if e.1 = j then e.2 else 0).sum = A.entry i j := by
  unfold Vbr.nzOf Vbr.entry
  rw [emits_sum, ← Finset.range_eq_Ico]
  refine sum_congr rfl fun bi hbi => ?_
  by_cases hr : A.row.get bi ≤ i ∧ i < A.row.get (bi + 1)
  · rw [if_pos hr]
    unfold Vbr.nzRow
    rw [emits_sum]
    refine sum_congr rfl fun bc _ => ?_
    rw [emits_sum]
    unfold Vbr.blockEntry Vbr.wd
    by_cases hc : A.col.get (A.bindex.get bc) ≤ j ∧ j < A.col.get (A.bindex.get bc + 1)
    · rw [if_pos ⟨hr, hc⟩, sum_eq_single (j - A.col.get (A.bindex.get bc))]
      · unfold Vbr.ht
        split
        · simp only [List.map_cons, List.map_nil, List.sum_cons, List.sum_nil, add_zero]
          rw [if_pos (by omega)]
        · next hz => rw [not_not] at hz; rw [hz]; rfl
      · intro l _ hl
        split
        · simp only [List.map_cons, List.map_nil, List.sum_cons, List.sum_nil, add_zero]
          rw [if_neg (by omega)]
        · rfl
      · intro hm; simp only [mem_Ico] at hm; omega
    · rw [if_neg (by tauto)]
      refine sum_eq_zero fun l hl => ?_
      simp only [mem_Ico] at hl
      split
      · simp only [List.map_cons, List.map_nil, List.sum_cons, List.sum_nil, add_zero]
        rw [if_neg (by omega)]
      · rfl
  · rw [if_neg hr]
    symm
    refine sum_eq_zero fun bc _ => ?_
    unfold Vbr.blockEntry
    rw [if_neg (by tauto)]
end Lis
