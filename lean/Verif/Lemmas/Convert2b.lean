import Verif.Lemmas.Convert2
import Verif.Lemmas.Blocks
import Verif.Spec.Padded

/-! Lemmas on the conversions BSR, BSC → CSR. -/

namespace Lis
open Finset
variable {R : Type}

theorem byKey_emits {α : Type} (c lo hi : ℕ) (em : ℕ → List (ℕ × α)) :
    byKey c (emits lo hi em) = emits lo hi fun k => byKey c (em k) := by
  rcases Nat.lt_or_ge hi lo with h | h
  · simp [emits, show hi - lo = 0 by omega]
  · induction hi, h using Nat.le_induction with
    | base => simp [emits_self]
    | succ n hn ih => rw [emits_succ hn, emits_succ hn, byKey_append, ih]

theorem emits_congr {β : Type} {lo hi : ℕ} {em em' : ℕ → List β} (h : ∀ k, lo ≤ k → k < hi → em k = em' k) :
    emits lo hi em = emits lo hi em' := by
  rcases Nat.lt_or_ge hi lo with h' | h'
  · simp [emits, show hi - lo = 0 by omega]
  · induction hi, h' using Nat.le_induction with
    | base => simp [emits_self]
    | succ n hn ih => rw [emits_succ hn, emits_succ hn, ih fun k h1 h2 => h k h1 (by omega), h n hn (by omega)]

theorem emits_nil {β : Type} {lo hi : ℕ} {em : ℕ → List β} (h : ∀ k, lo ≤ k → k < hi → em k = []) :
    emits lo hi em = [] := by
  rw [emits_congr (em' := fun _ => []) h]; simp [emits]

theorem emits_only {β : Type} {lo hi k : ℕ} {em : ℕ → List β} (h1 : lo ≤ k) (h2 : k < hi)
    (h : ∀ l, lo ≤ l → l < hi → l ≠ k → em l = []) : emits lo hi em = em k := by
  induction hi, (show lo ≤ hi by omega) using Nat.le_induction with
  | base => omega
  | succ n hn ih =>
    rw [emits_succ hn]
    by_cases hk : k = n
    · subst hk
      rw [emits_nil fun l a b => h l a (by omega) (by omega), List.nil_append]
    · rw [ih (by omega) fun l a b c => h l a (by omega) c, h n hn (by omega) (by omega), List.append_nil]

theorem PtrWF.locate {m nnz : ℕ} {p : Arr ℕ} (h : PtrWF m nnz p) {k : ℕ} (hk : k < nnz) :
    ∃ c, c < m ∧ p.get c ≤ k ∧ k < p.get (c + 1) := by
  have key : ∀ t, t ≤ m → k < p.get t → ∃ c, c < m ∧ p.get c ≤ k ∧ k < p.get (c + 1) := by
    intro t
    induction t with
    | zero => intro _ hk; rw [h.zero] at hk; omega
    | succ t ih =>
      intro ht hkt
      by_cases hk' : k < p.get t
      · exact ih (by omega) hk'
      · exact ⟨t, by omega, by omega, hkt⟩
  exact key m le_rfl (by rw [h.last]; exact hk)

/-! ### BSR -/

/-- the element of block `bc`, position `(i,j)`, if it is not 0 -/
def Bsr.cell [Zero R] [DecidableEq R] (A : Bsr R) (bi bc j i : ℕ) : List (ℕ × ℕ × R) :=
  if A.value.get (bc * (A.bnr * A.bnc) + j * A.bnr + i) ≠ 0 then
    [(bi * A.bnr + i, (A.bindex.get bc * A.bnc + j, A.value.get (bc * (A.bnr * A.bnc) + j * A.bnr + i)))] else []

def Bsr.nzList [Zero R] [DecidableEq R] (A : Bsr R) : List (ℕ × ℕ × R) :=
  emits 0 A.nr fun bi => emits (A.bptr.get bi) (A.bptr.get (bi + 1)) fun bc => emits 0 A.bnc fun j =>
    emits 0 A.bnr fun i => A.cell bi bc j i

def Bsr.nzRow [Zero R] [DecidableEq R] (A : Bsr R) (bi i : ℕ) : List (ℕ × R) :=
  emits (A.bptr.get bi) (A.bptr.get (bi + 1)) fun bc => emits 0 A.bnc fun j =>
    if A.value.get (bc * (A.bnr * A.bnc) + j * A.bnr + i) ≠ 0 then
      [(A.bindex.get bc * A.bnc + j, A.value.get (bc * (A.bnr * A.bnc) + j * A.bnr + i))] else []

theorem divmod_unique {b q r q' r' : ℕ} (hr : r < b) (hr' : r' < b) (h : q * b + r = q' * b + r') : q = q' ∧ r = r' := by
  rcases Nat.lt_trichotomy q q' with h1 | h1 | h1
  · have := Nat.mul_le_mul_right b (show q + 1 ≤ q' from h1)
    rw [Nat.add_mul] at this; omega
  · subst h1; omega
  · have := Nat.mul_le_mul_right b (show q' + 1 ≤ q from h1)
    rw [Nat.add_mul] at this; omega

theorem Bsr.byKey_nzList [Zero R] [DecidableEq R] {A : Bsr R} {bi i : ℕ} (hbi : bi < A.nr) (hi : i < A.bnr) :
    byKey (bi * A.bnr + i) A.nzList = A.nzRow bi i := by
  have hcell : ∀ bi' bc j i', i' < A.bnr → byKey (bi * A.bnr + i) (A.cell bi' bc j i') =
      if bi' = bi ∧ i' = i then (if A.value.get (bc * (A.bnr * A.bnc) + j * A.bnr + i) ≠ 0 then
      [(A.bindex.get bc * A.bnc + j, A.value.get (bc * (A.bnr * A.bnc) + j * A.bnr + i))] else []) else [] := by
    intro bi' bc j i' hi'
    unfold Bsr.cell
    by_cases hc : bi' = bi ∧ i' = i
    · rw [if_pos hc, hc.1, hc.2]
      split
      · rw [byKey_single]; simp
      · rfl
    · rw [if_neg hc]
      split
      · rw [byKey_single, if_neg]
        intro h
        exact hc (divmod_unique hi' hi h)
      · rfl
  unfold Bsr.nzList Bsr.nzRow
  rw [byKey_emits, emits_only (k := bi) (Nat.zero_le _) hbi]
  · simp only [byKey_emits]
    refine emits_congr fun bc _ _ => emits_congr fun j _ _ => ?_
    rw [emits_only (k := i) (Nat.zero_le _) hi]
    · rw [hcell _ _ _ _ hi, if_pos ⟨rfl, rfl⟩]
    · intro l _ hl hne
      rw [hcell _ _ _ _ hl, if_neg (by tauto)]
  · intro b _ _ hne
    simp only [byKey_emits]
    refine emits_nil fun bc _ _ => emits_nil fun j _ _ => emits_nil fun l _ hl => ?_
    rw [hcell _ _ _ _ hl, if_neg (by tauto)]

theorem Bsr.pos_lt {A : Bsr R} (h : A.WF) {bc i j : ℕ} (hb : bc < A.bnnz) (hi : i < A.bnr) (hj : j < A.bnc) :
    bc * (A.bnr * A.bnc) + j * A.bnr + i < A.value.size := by
  have h1 := h.vsz
  have h2 := Nat.mul_le_mul_right (A.bnr * A.bnc) (show bc + 1 ≤ A.bnnz from hb)
  have h3 := Nat.mul_le_mul_right A.bnr (show j + 1 ≤ A.bnc from hj)
  rw [Nat.add_mul] at h2 h3
  have h4 : A.bnc * A.bnr = A.bnr * A.bnc := Nat.mul_comm _ _
  omega

theorem bsr2csrRow_spec [Zero R] [DecidableEq R] {A : Bsr R} (h : A.WF) {bi i cap : ℕ} (hbi : bi < A.nr) (hi : i < A.bnr)
    {E : List (ℕ × R)} {s : ℕ × Arr ℕ × Arr R} (hP : Pushed cap E s) (hcap : (E ++ A.nzRow bi i).length ≤ cap) :
    Ok (bsr2csrRow A bi i s) (Pushed cap (E ++ A.nzRow bi i)) := by
  have hp := h.bptr.size
  unfold bsr2csrRow
  simp only [Ok_bind, Ok_rd]
  refine ⟨by omega, by omega, ?_⟩
  unfold Bsr.nzRow at hcap ⊢
  refine Ok_pushLoop (h.bptr.mono bi hbi) hP hcap ?_ fun s hs => hs
  intro bc k ix vl F _ hbc hF hroom
  have hbn := h.bptr.lt_nnz hbi hbc
  refine Ok_pushLoop (Nat.zero_le _) hF hroom ?_ fun s hs => hs
  intro j k ix vl F _ hj hF hroom
  have := A.pos_lt h hbn hi hj
  have hx := h.isz
  obtain ⟨q1, q2⟩ := hF.pushIf _ hroom
  simp only [Ok_bind, Ok_rd, Ok_wr, Ok_pure, Ok_ite]
  refine ⟨this, fun hv => ?_, fun hv => q2 hv⟩
  obtain ⟨a, b, c⟩ := q1 hv
  exact ⟨b, by omega, a, c⟩

theorem bsr2csr_spec' [Zero R] [DecidableEq R] (junk : ℕ → ℕ → ℕ) (vjunk : ℕ → R) {A : Bsr R} (h : A.WF) (hz : A.Padded) :
    Ok (bsr2csr junk vjunk A) fun C => C.n = A.n ∧ C.np = A.n ∧
      C.Rows fun r => A.nzRow (r / A.bnr) (r % A.bnr) := by
  have hp := h.bptr.size
  have hbr := h.hbr
  unfold bsr2csr
  simp only [Ok_bind]
  refine Ok_fillConst (by simp) fun p0 hp0 hpz => ?_
  simp only [Arr.malloc_size] at hp0
  refine Ok_emit (em := fun bi => emits (A.bptr.get bi) (A.bptr.get (bi + 1)) fun bc => emits 0 A.bnc fun j =>
    emits 0 A.bnr fun i => A.cell bi bc j i)
    (fun pre (p : Arr ℕ) => Counted A.n 1 pre p ∧ p.size = A.n + 1 ∧ p.get 0 = 0) (E := [])
    (Nat.zero_le _) ⟨⟨by omega, fun c hc => by simpa using hpz (c + 1) (by omega)⟩, hp0, hpz 0 (by omega)⟩ ?_ ?_
  · intro bi p _ hbi hI _
    simp only [Ok_bind, Ok_rd]
    refine ⟨by omega, by omega, ?_⟩
    refine Ok_emit (em := fun bc => emits 0 A.bnc fun j => emits 0 A.bnr fun i => A.cell bi bc j i)
      (fun pre (p : Arr ℕ) => Counted A.n 1 pre p ∧ p.size = A.n + 1 ∧ p.get 0 = 0) (h.bptr.mono bi hbi) hI ?_ fun s hs => hs
    intro bc p hbc1 hbc hI _
    have hbn := h.bptr.lt_nnz hbi hbc
    refine Ok_emit (em := fun j => emits 0 A.bnr fun i => A.cell bi bc j i)
      (fun pre (p : Arr ℕ) => Counted A.n 1 pre p ∧ p.size = A.n + 1 ∧ p.get 0 = 0) (Nat.zero_le _) hI ?_ fun s hs => hs
    intro j p _ hj hI _
    refine Ok_emit (em := fun i => A.cell bi bc j i)
      (fun pre (p : Arr ℕ) => Counted A.n 1 pre p ∧ p.size = A.n + 1 ∧ p.get 0 = 0) (Nat.zero_le _) hI ?_ fun s hs => hs
    rintro i p _ hi ⟨c1, c2, c3⟩ _
    have hps := A.pos_lt h hbn hi hj
    simp only [Ok_bind, Ok_rd, Ok_wr, Ok_pure, Ok_ite]
    refine ⟨hps, fun hv => ?_, fun hv => ?_⟩
    · have hr : bi * A.bnr + i < A.n := by
        by_contra hc
        exact hv (hz.zero bi hbi bc hbc1 hbc i j hi hj (Or.inl (by omega)))
      have hst := c1.step (e := (bi * A.bnr + i, (A.bindex.get bc * A.bnc + j, A.value.get (bc * (A.bnr * A.bnc) + j * A.bnr + i)))) hr
      rw [show A.cell bi bc j i = [(bi * A.bnr + i, (A.bindex.get bc * A.bnc + j, A.value.get (bc * (A.bnr * A.bnc) + j * A.bnr + i)))] by
        unfold Bsr.cell; rw [if_pos hv]]
      refine ⟨by omega, by omega, hst.2, by simpa, ?_⟩
      rw [Arr.set_get_ne _ _ (by omega)]; exact c3
    · rw [show A.cell bi bc j i = [] by unfold Bsr.cell; rw [if_neg hv], List.append_nil]
      exact ⟨c1, c2, c3⟩
  rintro p ⟨c1, c2, c3⟩
  rw [List.nil_append] at c1
  refine (prefixSums_counted c1 c3).mono ?_
  rintro ptr ⟨p1, p2, p3⟩
  change Segs A.n ptr.get A.nzList at p3
  obtain ⟨L, hL⟩ : ∃ L : ℕ → List (ℕ × R), L = fun r => A.nzRow (r / A.bnr) (r % A.bnr) := ⟨_, rfl⟩
  have hdiv : ∀ r, r < A.n → r / A.bnr < A.nr := fun r hr => by
    rw [Nat.div_lt_iff_lt_mul hbr]; exact hr.trans_le h.hn
  have hbk : ∀ r, r < A.n → byKey r A.nzList = L r := by
    intro r hr
    have := A.byKey_nzList (bi := r / A.bnr) (i := r % A.bnr) (hdiv r hr) (Nat.mod_lt _ hbr)
    rw [Nat.div_add_mod'] at this
    rw [this, hL]
  have hptr : ∀ i, i ≤ A.n → ptr.get i = (concatRows i L).length := by
    intro i
    induction i with
    | zero => intro _; rw [p2]; rfl
    | succ i ih =>
      intro hi
      have := p3.succ i hi
      rw [hbk i hi] at this
      rw [this, ih (by omega), concatRows_succ, List.length_append]
  rw [Ok_rd]
  refine ⟨by omega, ?_⟩
  have hmin : ∀ bi i, bi < A.nr → i ≤ A.bnr → bi * A.bnr ≤ A.n := by
    intro bi i hbi _
    exact (Nat.mul_le_mul_right _ (by omega)).trans hz.fit
  have hcap : ∀ i, i ≤ A.n → (concatRows i L).length ≤ ptr.get A.n := by
    intro i hi
    rw [hptr A.n le_rfl, ← emits_zero, ← emits_zero]
    exact (emits_prefix hi (Nat.zero_le _) L).length_le
  refine Ok_loop_le (fun bi (s : Arr ℕ × Arr R) => ∃ k, Pushed (ptr.get A.n) (concatRows (min A.n (bi * A.bnr)) L) (k, s))
    (Nat.zero_le _) ⟨0, ?_⟩ ?_ ?_
  · rw [Nat.zero_mul, Nat.min_zero]
    exact ⟨rfl, rfl, rfl, Filled.nil _⟩
  · rintro bi s _ hbi ⟨k, hs⟩
    have hle := hmin bi 0 hbi (by omega)
    refine Ok_loopB (fun i (s : Arr ℕ × Arr R) => bi * A.bnr + i ≤ A.n ∧ ∃ k, Pushed (ptr.get A.n) (concatRows (bi * A.bnr + i) L) (k, s))
      ⟨by omega, k, by rw [Nat.min_eq_right hle] at hs; exact hs⟩ ?_ ?_
    · rintro i s _ hi ⟨hin, k, hs⟩
      by_cases he : bi * A.bnr + i = A.n
      · rw [if_pos he, Ok_pure]
        simp only [if_true]
        refine ⟨k, ?_⟩
        rw [Nat.min_eq_left (by rw [Nat.add_mul]; omega)]
        rw [he] at hs; exact hs
      · rw [if_neg he]
        simp only [Ok_bind, Ok_rd]
        refine ⟨by omega, ?_⟩
        have hrow : L (bi * A.bnr + i) = A.nzRow bi i := by
          rw [hL]
          show A.nzRow ((bi * A.bnr + i) / A.bnr) ((bi * A.bnr + i) % A.bnr) = _
          rw [Nat.mul_add_mod', Nat.mod_eq_of_lt hi, Nat.add_comm, Nat.add_mul_div_right _ _ hbr, Nat.div_eq_of_lt hi, Nat.zero_add]
        have hP : Pushed (ptr.get A.n) (concatRows (bi * A.bnr + i) L) (ptr.get (bi * A.bnr + i), s.1, s.2) :=
          ⟨hptr _ hin, hs.isz, hs.vsz, hs.fil⟩
        have hc := hcap (bi * A.bnr + i + 1) (by omega)
        rw [concatRows_succ, hrow] at hc
        refine (bsr2csrRow_spec h hbi hi hP hc).mono ?_
        rintro ⟨k', ix, vl⟩ ht
        rw [Ok_pure]
        refine ⟨by omega, k', ?_⟩
        rw [← Nat.add_assoc, concatRows_succ, hrow]; exact ht
    · rintro s ⟨hin, k, hs⟩
      rw [Nat.max_eq_right (Nat.zero_le _)] at hin hs
      refine ⟨k, ?_⟩
      rw [Nat.add_mul, Nat.one_mul, Nat.min_eq_right hin]; exact hs
  · rintro s ⟨k, hs⟩
    rw [Nat.min_eq_left h.hn] at hs
    rw [Ok_pure]
    refine ⟨rfl, rfl, ?_⟩
    rw [← hL]
    exact ⟨by simp only; omega, hptr, hptr _ le_rfl, hs.isz.ge, hs.vsz.ge, hs.fil⟩

/-! ### BSC -/

/-- the element of block `bc`, position `(i,j)`, if it is not 0 -/
def Bsc.cell [Zero R] [DecidableEq R] (A : Bsc R) (bj j bc i : ℕ) : List (ℕ × ℕ × R) :=
  if A.value.get (bc * (A.bnr * A.bnc) + j * A.bnr + i) ≠ 0 then
    [(A.bindex.get bc * A.bnr + i, (bj * A.bnc + j, A.value.get (bc * (A.bnr * A.bnc) + j * A.bnr + i)))] else []

def Bsc.nzCol [Zero R] [DecidableEq R] (A : Bsc R) (bj j : ℕ) : List (ℕ × ℕ × R) :=
  emits (A.bptr.get bj) (A.bptr.get (bj + 1)) fun bc => emits 0 A.bnr fun i => A.cell bj j bc i

def Bsc.nzList [Zero R] [DecidableEq R] (A : Bsc R) : List (ℕ × ℕ × R) :=
  emits 0 A.nc fun bj => emits 0 A.bnc fun j => A.nzCol bj j

theorem Bsc.pos_lt {A : Bsc R} (h : A.WF) {bc i j : ℕ} (hb : bc < A.bnnz) (hi : i < A.bnr) (hj : j < A.bnc) :
    bc * (A.bnr * A.bnc) + j * A.bnr + i < A.value.size := by
  have h1 := h.vsz
  have h2 := Nat.mul_le_mul_right (A.bnr * A.bnc) (show bc + 1 ≤ A.bnnz from hb)
  have h3 := Nat.mul_le_mul_right A.bnr (show j + 1 ≤ A.bnc from hj)
  rw [Nat.add_mul] at h2 h3
  have h4 : A.bnc * A.bnr = A.bnr * A.bnc := Nat.mul_comm _ _
  omega

theorem Bsc.nzCol_nil [Zero R] [DecidableEq R] {A : Bsc R} (hz : A.Padded) {bj j : ℕ} (hbj : bj < A.nc) (hj : j < A.bnc)
    (hn : A.n ≤ bj * A.bnc + j) : A.nzCol bj j = [] := by
  refine emits_nil fun bc h1 h2 => emits_nil fun i _ hi => ?_
  unfold Bsc.cell
  rw [if_neg]
  rw [not_not]
  exact hz.zero bj hbj bc h1 h2 i j hi hj (Or.inr hn)

theorem bsc2csr_spec' [Zero R] [DecidableEq R] (junk : ℕ → ℕ → ℕ) (vjunk : ℕ → R) {A : Bsc R} (h : A.WF) (hz : A.Padded) :
    Ok (bsc2csr junk vjunk A) fun C => C.n = A.n ∧ C.np = A.n ∧
      (⟨C.np, C.n, C.nnz, C.ptr, C.index, C.value⟩ : Csc R).Cols A.nzList := by
  have hp := h.bptr.size
  have hxs := h.isz
  have hrow : ∀ bj, bj < A.nc → ∀ bc, A.bptr.get bj ≤ bc → bc < A.bptr.get (bj + 1) → ∀ i j, i < A.bnr → j < A.bnc →
      A.value.get (bc * (A.bnr * A.bnc) + j * A.bnr + i) ≠ 0 → A.bindex.get bc * A.bnr + i < A.n := by
    intro bj hbj bc h1 h2 i j hi hj hv
    by_contra hc
    exact hv (hz.zero bj hbj bc h1 h2 i j hi hj (Or.inl (by omega)))
  unfold bsc2csr
  simp only [Ok_bind]
  refine Ok_fillConst (by simp) fun p0 hp0 hpz => ?_
  simp only [Arr.malloc_size] at hp0
  refine Ok_emit (em := fun bj => emits 0 A.bnc fun j => A.nzCol bj j)
    (fun pre (p : Arr ℕ) => Counted A.n 0 pre p ∧ p.size = A.n) (E := [])
    (Nat.zero_le _) ⟨⟨by omega, fun c hc => by simpa using hpz c (by omega)⟩, hp0⟩ ?_ ?_
  · intro bj p _ hbj hI _
    refine Ok_emit (em := fun j => A.nzCol bj j)
      (fun pre (p : Arr ℕ) => Counted A.n 0 pre p ∧ p.size = A.n) (Nat.zero_le _) hI ?_ fun s hs => hs
    intro j p _ hj hI _
    simp only [Ok_bind, Ok_rd]
    refine ⟨by omega, by omega, ?_⟩
    refine Ok_emit (em := fun bc => emits 0 A.bnr fun i => A.cell bj j bc i)
      (fun pre (p : Arr ℕ) => Counted A.n 0 pre p ∧ p.size = A.n) (h.bptr.mono bj hbj) hI ?_ fun s hs => hs
    intro bc p hbc1 hbc hI _
    have hbn := h.bptr.lt_nnz hbj hbc
    refine Ok_emit (em := fun i => A.cell bj j bc i)
      (fun pre (p : Arr ℕ) => Counted A.n 0 pre p ∧ p.size = A.n) (Nat.zero_le _) hI ?_ fun s hs => hs
    rintro i p _ hi ⟨c1, c2⟩ _
    have hps := A.pos_lt h hbn hi hj
    simp only [Ok_bind, Ok_rd, Ok_wr, Ok_pure, Ok_ite]
    refine ⟨hps, fun hv => ?_, fun hv => ?_⟩
    · have hr := hrow bj hbj bc hbc1 hbc i j hi hj hv
      have hst := c1.step (e := (A.bindex.get bc * A.bnr + i, (bj * A.bnc + j, A.value.get (bc * (A.bnr * A.bnc) + j * A.bnr + i)))) hr
      rw [show A.cell bj j bc i = [(A.bindex.get bc * A.bnr + i, (bj * A.bnc + j, A.value.get (bc * (A.bnr * A.bnc) + j * A.bnr + i)))] by
        unfold Bsc.cell; rw [if_pos hv]]
      exact ⟨by omega, by omega, by omega, hst.2, by simpa⟩
    · rw [show A.cell bj j bc i = [] by unfold Bsc.cell; rw [if_neg hv], List.append_nil]
      exact ⟨c1, c2⟩
  rintro iw ⟨c1, c2⟩
  rw [List.nil_append] at c1
  change Counted A.n 0 A.nzList iw at c1
  refine Ok_loop_le (fun i (p : Arr ℕ) => p.size = A.n + 1 ∧ ∀ k, k < i → p.get (k + 1) = iw.get k) (Nat.zero_le _)
    ⟨rfl, by simp⟩ ?_ ?_
  · rintro i p _ hi ⟨q1, q2⟩
    simp only [Ok_bind, Ok_rd, Ok_wr]
    refine ⟨by omega, by omega, by simpa, fun k hk => ?_⟩
    rw [Arr.set_get]
    split
    · next hh => rw [show k = i by omega]
    · exact q2 k (by omega)
  rintro q ⟨q1, q2⟩
  simp only [Ok_wr]
  refine ⟨by omega, ?_⟩
  have c1' : Counted A.n 1 A.nzList (q.set 0 0) := ⟨by simp [q1], fun c hc => by
    rw [Arr.set_get_ne _ _ (by omega), q2 c hc]; exact c1.cnt c hc⟩
  refine (prefixSums_counted c1' (by simp [q1])).mono ?_
  rintro ptr ⟨p1, p2, hsegs⟩
  simp only [Arr.set_size] at p1
  rw [Ok_rd]
  refine ⟨by omega, ?_⟩
  refine Ok_loop_le (fun i (w : Arr ℕ) => w.size = A.n ∧ ∀ c, c < i → w.get c = ptr.get c) (Nat.zero_le _) ⟨c2, by simp⟩ ?_ ?_
  · rintro i w _ hi ⟨w1, w2⟩
    simp only [Ok_bind, Ok_rd, Ok_wr]
    refine ⟨by omega, by omega, by simpa, fun c hc => ?_⟩
    rw [Arr.set_get]
    split
    · next hh => rw [hh]
    · exact w2 c (by omega)
  rintro w ⟨w1, w2⟩
  refine Ok_emit (em := fun bj => emits 0 A.bnc fun j => A.nzCol bj j)
    (fun pre (s : Arr ℕ × Arr ℕ × Arr R) => Scattering A.n ptr.get pre s) (E := []) (Nat.zero_le _)
    ⟨w1.ge, by simp, by simp, Scat.nil w2⟩ ?_ ?_
  · rintro bj s _ hbj hS hpre
    rw [List.nil_append (emits 0 A.nc _)] at hpre
    change _ <+: A.nzList at hpre
    obtain ⟨E, hE⟩ : ∃ E, E = ([] ++ emits 0 bj fun bj => emits 0 A.bnc fun j => A.nzCol bj j) := ⟨_, rfl⟩
    rw [← hE] at hS hpre ⊢
    have hfit : bj * A.bnc ≤ A.n := (Nat.mul_le_mul_right _ (show bj ≤ A.nc - 1 by omega)).trans hz.fit
    refine Ok_loopB (fun j (s : Arr ℕ × Arr ℕ × Arr R) => bj * A.bnc + j ≤ A.n ∧
      Scattering A.n ptr.get (E ++ emits 0 j fun j => A.nzCol bj j) s)
      ⟨by omega, by rw [emits_self, List.append_nil]; exact hS⟩ ?_ ?_
    · rintro j s _ hj ⟨hjn, hS⟩
      by_cases he : bj * A.bnc + j = A.n
      · rw [if_pos he, Ok_pure]
        simp only [if_true]
        have : (emits 0 A.bnc fun j => A.nzCol bj j) = emits 0 j fun j => A.nzCol bj j := by
          have key : ∀ m, j ≤ m → m ≤ A.bnc → (emits 0 m fun j => A.nzCol bj j) = emits 0 j fun j => A.nzCol bj j := by
            intro m hm
            induction m, hm using Nat.le_induction with
            | base => intro _; rfl
            | succ m hm ih =>
              intro hmc
              rw [emits_succ (Nat.zero_le _), ih (by omega), A.nzCol_nil hz hbj (by omega) (by omega), List.append_nil]
          exact key _ (by omega) le_rfl
        rw [this]; exact hS
      · rw [if_neg he]
        simp only [Ok_bind, Ok_rd]
        refine ⟨by omega, by omega, ?_⟩
        have hpre1 : (E ++ emits 0 j fun j => A.nzCol bj j) ++ A.nzCol bj j <+: A.nzList := by
          refine List.IsPrefix.trans ?_ hpre
          rw [List.append_assoc, ← emits_succ (Nat.zero_le j) (fun j => A.nzCol bj j)]
          exact (List.prefix_append_right_inj _).2 (emits_prefix (by omega) (Nat.zero_le _) _)
        obtain ⟨F, hF⟩ : ∃ F, F = (E ++ emits 0 j fun j => A.nzCol bj j) := ⟨_, rfl⟩
        have hgoal : (E ++ emits 0 (j + 1) fun j => A.nzCol bj j) = F ++ A.nzCol bj j := by
          rw [emits_succ (Nat.zero_le j), ← List.append_assoc, hF]
        rw [hgoal]
        rw [← hF] at hS hpre1
        refine Ok_emit (em := fun bc => emits 0 A.bnr fun i => A.cell bj j bc i)
          (fun pre (s : Arr ℕ × Arr ℕ × Arr R) => Scattering A.n ptr.get pre s) (h.bptr.mono bj hbj) hS ?_ ?_
        · intro bc s hbc1 hbc hS hpre2
          have hbn := h.bptr.lt_nnz hbj hbc
          have hpre2' := hpre2.trans hpre1
          refine Ok_emit (em := fun i => A.cell bj j bc i)
            (fun pre (s : Arr ℕ × Arr ℕ × Arr R) => Scattering A.n ptr.get pre s) (Nat.zero_le _) hS ?_ fun s hs => hs
          rintro i ⟨iw, ix, vl⟩ _ hi hS hpre3
          have hps := A.pos_lt h hbn hi hj
          simp only [Ok_bind, Ok_rd, Ok_wr, Ok_pure, Ok_ite]
          refine ⟨hps, fun hv => ?_, fun hv => ?_⟩
          · have hr := hrow bj hbj bc hbc1 hbc i j hi hj hv
            have hp3 := hpre3.trans hpre2'
            have hee : A.cell bj j bc i = [(A.bindex.get bc * A.bnr + i, (bj * A.bnc + j, A.value.get (bc * (A.bnr * A.bnc) + j * A.bnr + i)))] := by
              unfold Bsc.cell; rw [if_pos hv]
            rw [hee] at hp3 ⊢
            obtain ⟨s1, s2, s3, s4⟩ := hS.step hsegs hp3 hr
            exact ⟨by omega, s1, s1, s3, s2, s4⟩
          · rw [show A.cell bj j bc i = [] by unfold Bsc.cell; rw [if_neg hv], List.append_nil]
            exact hS
        · intro s hs
          rw [Ok_pure]
          exact ⟨by omega, hs⟩
    · rintro s ⟨-, hS⟩
      rw [Nat.max_eq_right (Nat.zero_le _)] at hS
      exact hS
  · rintro ⟨iw, ix, vl⟩ hS
    rw [List.nil_append] at hS
    rw [Ok_pure]
    exact ⟨rfl, rfl, hS.cols (by omega) p2 hsegs rfl⟩

/-- positions of the block arrays outside the matrix hold 0 -/
theorem Blk.Holds.padding [Zero R] {B : Blk R} {nb nmin bmaj bmin n m : ℕ} {pos : ℕ → ℕ → ℕ} {L : ℕ → List (ℕ × R)}
    (h : B.Holds nb nmin bmaj bmin n pos L) (hcol : ∀ i, i < n → ∀ e ∈ L i, e.1 < m) {bi bc ii j : ℕ} (hbi : bi < nb)
    (h1 : B.bptr.get bi ≤ bc) (h2 : bc < B.bptr.get (bi + 1)) (hii : ii < bmaj) (hj : j < bmin)
    (ho : n ≤ bi * bmaj + ii ∨ m ≤ B.bindex.get bc * bmin + j) : B.value.get (bc * (bmaj * bmin) + pos ii j) = 0 := by
  have e1 := h.ptr (bi + 1) hbi
  rw [sum_range_succ, ← h.ptr bi (by omega)] at e1
  have hix := h.ix bi hbi (bc - B.bptr.get bi) (by omega)
  have hvl := h.vl bi hbi (bc - B.bptr.get bi) (by omega) ii j hii hj
  rw [show B.bptr.get bi + (bc - B.bptr.get bi) = bc by omega] at hix hvl
  rw [hvl, ← hix]
  refine lastVal_zero ?_
  rintro e he ⟨e1, e2⟩
  have hm := blkElems_prefix_mem (List.prefix_refl _) hcol e he
  obtain ⟨q1, q2, q3⟩ := blkElems_mem.1 he
  rcases ho with ho | ho
  · omega
  · omega

end Lis
