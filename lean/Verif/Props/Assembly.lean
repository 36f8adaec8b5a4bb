import Verif.Lemmas.Assembly3

/-!
# Properties C01–C04: matrix assembly

`AMat.mat A i j` is what the row buffers hold for position `(i,j)` (0 when nothing is stored),
`AMat.stored A i j` that an element is stored for it.  The specification of the calls (`specSets`,
`Touched`, `SetCall.InRange`) is in `Verif/Spec/Assembly.lean` and does not mention buffers.
-/

namespace Lis
open Finset
variable {R : Type}

/-! ### how a matrix gets ready for assembly -/

/-- `lis_matrix_create` followed by a successful `lis_matrix_set_size` gives a matrix on which the
assembly theorems hold; nothing is stored in it. -/
theorem create_setSize_ready (J : Junk R) (localN globalN : ℤ)
    (hok : (matrixSetSize localN globalN (matrixCreate J)).1 = .success) :
    let A := (matrixSetSize localN globalN (matrixCreate J)).2
    A.Ready ∧ (A.n : ℤ) = (if localN = 0 then globalN else localN) ∧ A.gn = A.n ∧ 0 < A.n ∧
      A.origin = false ∧ ∀ a b, ¬ A.stored a b := by
  revert hok
  unfold matrixSetSize
  split
  · simp
  split
  · simp
  split
  · simp
  intro _
  refine ⟨⟨by simp [matrixCreate], rfl, rfl, Or.inl ⟨rfl, by simp [matrixCreate]⟩⟩, ?_, rfl, ?_, rfl, ?_⟩
  · show ((if localN = 0 then globalN.toNat else localN.toNat : ℕ) : ℤ) = _
    split <;> omega
  · show 0 < (if localN = 0 then globalN.toNat else localN.toNat)
    split <;> omega
  · rintro a b ⟨h, _⟩; cases h

/-- `lis_matrix_set_size` accepts exactly: nonnegative sizes, not both zero, local ≤ global when a
global size is given. -/
theorem setSize_success_iff (A : AMat R) (localN globalN : ℤ) :
    (matrixSetSize localN globalN A).1 = .success ↔
      0 ≤ localN ∧ 0 ≤ globalN ∧ (localN ≠ 0 ∨ globalN ≠ 0) ∧ (globalN = 0 ∨ localN ≤ globalN) := by
  unfold matrixSetSize
  split
  · simp; omega
  split
  · simp; omega
  split
  · simp; omega
  · simp; omega

/-- `lis_matrix_malloc` with a positive row size (or with per-row sizes) before assembly keeps the
matrix ready. -/
theorem matrixMalloc_ready (J : Junk R) (A : AMat R) (h : A.Ready) (hs : A.status = .null) (m : ℕ)
    (nnz : Option (Arr ℕ)) (hm : nnz = none → 0 < m) (hz : ∀ z, nnz = some z → A.n ≤ z.size) :
    Ok (matrixMalloc J m nnz A) fun p => p.1 = .success ∧ p.2.Ready ∧ p.2.n = A.n ∧ p.2.gn = A.gn ∧
      p.2.status = .null := by
  have hw : A.n ≤ (A.wnnz.getD (.malloc A.n (J.nat 0))).size := by
    rcases h.st with ⟨_, hh⟩ | ⟨hh, _⟩
    · cases hx : A.wnnz with
      | none => simp
      | some w => simpa using hh w hx
    · rw [hs] at hh; cases hh
  unfold matrixMalloc
  rw [if_neg (by simp [hs])]
  cases nnz with
  | none =>
    simp only [Ok_bind]
    refine Ok_fillConst hw fun b hb _ => ?_
    simp only [Ok_pure]
    refine ⟨trivial, ⟨hm rfl, h.base, h.sq, Or.inl ⟨hs, ?_⟩⟩, trivial, trivial, hs⟩
    rintro w ⟨⟩; show A.n ≤ b.size; omega
  | some z =>
    simp only [Ok_bind]
    refine Ok_loop_fill (fun i => z.get i) ?_ ?_
    · intro i y _ hi hy _ _
      simp only [Ok_bind, Ok_rd, Ok_wr]
      have := hz z rfl
      exact ⟨by omega, by omega, trivial⟩
    · intro b hb _ _
      simp only [Ok_pure]
      refine ⟨trivial, ⟨h.annz, h.base, h.sq, Or.inl ⟨hs, ?_⟩⟩, trivial, trivial, hs⟩
      rintro w ⟨⟩; show A.n ≤ b.size; omega

/-! ### C01, C03: the buffers behave like a map, and stay in bounds -/

theorem specSet_congr [Add R] (o : Bool) (gn : ℕ) {m m' : ℕ → ℕ → R} (c : SetCall R) {n : ℕ}
    (h : ∀ a b, a < n → m a b = m' a b) : ∀ a b, a < n → specSet o gn m c a b = specSet o gn m' c a b := by
  intro a b ha
  unfold specSet
  split
  · simp only [h a b ha]
  · exact h a b ha

theorem specSets_congr [Add R] (o : Bool) (gn : ℕ) (cs : List (SetCall R)) {n : ℕ} :
    ∀ {m m' : ℕ → ℕ → R}, (∀ a b, a < n → m a b = m' a b) →
      ∀ a b, a < n → specSets o gn m cs a b = specSets o gn m' cs a b := by
  induction cs with
  | nil => intro m m' h; exact h
  | cons c cs ih => intro m m' h; exact ih (specSet_congr o gn c h)

/-- **C01 / C03.** Any sequence of `lis_matrix_set_value` calls on a matrix that is ready for assembly
runs without leaving its buffers (the outcome is defined), and afterwards the matrix holds, at every
position, what a map would hold; stored positions are exactly the old ones and those named by an
in-range call. -/
theorem setCalls_spec [AddCommMonoid R] (J : Junk R) (cs : List (SetCall R)) (A : AMat R) (h : A.Ready) :
    Ok (setCalls J cs A) fun B => B.Ready ∧ B.n = A.n ∧ B.gn = A.gn ∧ B.origin = A.origin ∧
      (∀ a b, a < A.n → B.mat a b = specSets A.origin A.gn A.mat cs a b) ∧
      ∀ a b, a < A.n → (B.stored a b ↔ A.stored a b ∨ Touched A.origin A.gn cs a b) := by
  induction cs generalizing A with
  | nil =>
    simp only [setCalls, Ok_some]
    exact ⟨h, by trivial, by trivial, by trivial, fun a b _ => rfl, fun a b _ => by simp [Touched]⟩
  | cons c cs ih =>
    simp only [setCalls, Ok_bind]
    refine (setValue_step J A h c).mono ?_
    rintro ⟨e, A1⟩ ⟨_, _, hr, e1, e2, e3, hm, hst⟩
    refine (ih A1 hr).mono ?_
    rintro B ⟨b1, b2, b3, b4, b5, b6⟩
    simp only at e1 e2 e3 hm hst
    refine ⟨b1, b2.trans e1, b3.trans e2, b4.trans e3, fun a b ha => ?_, fun a b ha => ?_⟩
    · rw [b5 a b (by omega), e2, e3]
      exact specSets_congr _ _ _ hm a b ha
    · rw [b6 a b (by omega), hst a b ha, e2, e3, or_assoc]
      simp [Touched]

/-- **C01**, from scratch: create, set the size, set values. -/
theorem create_setCalls_spec [AddCommMonoid R] (J : Junk R) (cs : List (SetCall R)) (localN globalN : ℤ)
    (hok : (matrixSetSize localN globalN (matrixCreate J)).1 = .success) :
    Ok (setCalls J cs (matrixSetSize localN globalN (matrixCreate J)).2) fun B =>
      (B.n : ℤ) = (if localN = 0 then globalN else localN) ∧
      (∀ a b, a < B.n → B.mat a b = specSets false B.n (fun _ _ => 0) cs a b) ∧
      (∀ a b, a < B.n → (B.stored a b ↔ Touched false B.n cs a b)) ∧
      (B.status = .assembling → B.bufs.Inv B.n B.n) := by
  obtain ⟨hr, hn, hg, _, ho, hns⟩ := create_setSize_ready J localN globalN hok
  refine (setCalls_spec J cs _ hr).mono ?_
  rintro B ⟨b1, b2, b3, b4, b5, b6⟩
  rw [ho] at b5 b6
  refine ⟨by rw [b2]; exact hn, fun a b ha => ?_, fun a b ha => ?_, fun hs => ?_⟩
  · rw [b5 a b (by omega), hg, ← b2]
    refine specSets_congr _ _ _ (n := B.n) ?_ a b ha
    intro a b _
    have := hns a b
    unfold AMat.mat
    split
    · next hh => exact Bufs.entry_not_stored fun hx => this ⟨hh, hx⟩
    · rfl
  · rw [b6 a b (by omega), hg, ← b2]
    simp [hns a b]
  · rcases b1.st with ⟨hh, _⟩ | ⟨_, _, hI⟩
    · rw [hs] at hh; cases hh
    · rwa [show B.gn = B.n by rw [b2, b3, hg]] at hI

/-- no position is stored twice, and every stored column is inside the matrix -/
theorem ready_nodup (A : AMat R) (h : A.Ready) (hs : A.status = .assembling) {i : ℕ} (hi : i < A.n) :
    (∀ k l, k < A.wrow.get i → l < A.wrow.get i →
      (A.widx.get i).get k = (A.widx.get i).get l → k = l) ∧
    ∀ k, k < A.wrow.get i → (A.widx.get i).get k < A.gn := by
  rcases h.st with ⟨hh, _⟩ | ⟨_, _, hI⟩
  · rw [hs] at hh; cases hh
  · exact ⟨hI.nodup i hi, hI.col i hi⟩

/-! ### C02 -/

/-- **C02.** In every state reached while assembling, `lis_matrix_set_value` with an index outside the
matrix reports an error and changes nothing; with indices inside it succeeds. -/
theorem setValue_status [AddCommMonoid R] (J : Junk R) (A : AMat R) (h : A.Ready) (c : SetCall R) :
    (¬ c.InRange A.origin A.gn → setValue J c.flag c.i c.j c.value A = some (.illArg, A)) ∧
    (c.InRange A.origin A.gn → Ok (setValue J c.flag c.i c.j c.value A) fun p => p.1 = .success) := by
  have := setValue_step J A h c
  refine ⟨fun hh => ?_, fun hh => this.mono fun p hp => hp.2.1 hh⟩
  obtain ⟨p, hp, hq⟩ := this
  rw [hp, hq.1 hh]

/-- an assembled matrix rejects further values, unchanged -/
theorem setValue_assembled [Add R] (J : Junk R) (A : AMat R) (h : A.status = .assembled)
    (flag i j : ℤ) (v : R) : setValue J flag i j v A = some (.illArg, A) := by
  unfold setValue; rw [if_pos h]

/-- `lis_matrix_set_values` on an `n × n` matrix with origin 0 stores (or adds) the whole dense block. -/
theorem setValues_spec [AddCommMonoid R] (J : Junk R) (A : AMat R) (h : A.Ready) (ho : A.origin = false)
    (flag : ℤ) (n : ℕ) (hn : n ≤ A.n) (v : Arr R) (hv : n * n ≤ v.size) :
    Ok (setValues J flag n v A) fun p => p.1 = .success ∧ p.2.Ready ∧ p.2.n = A.n ∧ p.2.gn = A.gn ∧
      ∀ a b, a < A.n → p.2.mat a b = if a < n ∧ b < n then
        (if flag = 0 then v.get (a * n + b) else A.mat a b + v.get (a * n + b)) else A.mat a b := by
  have hsq := h.sq
  unfold setValues
  rw [Ok_bind]
  let I : ℕ → ℕ → AMat R → Prop := fun i j B => B.Ready ∧ B.n = A.n ∧ B.gn = A.gn ∧ B.origin = A.origin ∧
    ∀ a b, a < A.n → B.mat a b = if (a < i ∨ a = i ∧ b < j) ∧ b < n then
        (if flag = 0 then v.get (a * n + b) else A.mat a b + v.get (a * n + b)) else A.mat a b
  refine Ok_loop_le (fun i B => I i 0 B) (Nat.zero_le _) ⟨h, rfl, rfl, rfl, fun a b _ => by simp⟩ ?_ ?_
  · intro i B _ hi hB
    refine Ok_loop_le (fun j B => I i j B) (Nat.zero_le _) hB ?_ ?_
    · rintro j B _ hj ⟨b1, b2, b3, b4, b5⟩
      simp only [Ok_bind, Ok_rd, Ok_pure]
      refine ⟨(flat_lt hi hj).trans_le hv, ?_⟩
      refine (setValue_step J B b1 ⟨flag, i, j, v.get (i * n + j)⟩).mono ?_
      rintro ⟨e, C⟩ ⟨_, _, c1, c2, c3, c4, c5, _⟩
      simp only at c2 c3 c4 c5
      refine ⟨c1, c2.trans b2, c3.trans b3, c4.trans b4, fun a b ha => ?_⟩
      rw [c5 a b (by omega), specSet, if_pos]
      · simp only [b4, ho, userIdx, Nat.cast_inj]
        by_cases hc : a = i ∧ b = j
        · obtain ⟨rfl, rfl⟩ := hc
          rw [b5 a b ha]
          simp [hj]
        · have h1 : ¬ ((a : ℤ) = i ∧ (b : ℤ) = j) := by omega
          rw [if_neg (by simpa using h1), b5 a b ha]
          have h2 : ((a < i ∨ a = i ∧ b < j + 1) ∧ b < n) ↔ ((a < i ∨ a = i ∧ b < j) ∧ b < n) := by omega
          simp only [h2]
      · simp only [SetCall.InRange, b4, ho, userIdx, b3, ← hsq]
        simp; omega
    · rintro B ⟨b1, b2, b3, b4, b5⟩
      refine ⟨b1, b2, b3, b4, fun a b ha => ?_⟩
      rw [b5 a b ha]
      have h2 : ((a < i ∨ a = i ∧ b < n) ∧ b < n) ↔ ((a < i + 1 ∨ a = i + 1 ∧ b < 0) ∧ b < n) := by omega
      simp only [h2]
  · rintro B ⟨b1, b2, b3, b4, b5⟩
    simp only [Ok_pure]
    refine ⟨trivial, b1, b2, b3, fun a b ha => ?_⟩
    rw [b5 a b ha]; simp

/-! ### C03: histories that do leave the buffers -/

/-- **C03, negative.** After `lis_matrix_malloc(A,0,NULL)` the first in-range `lis_matrix_set_value`
writes outside the (empty) row buffer, for every size and every position. -/
theorem setValue_annz0_oob [Add R] (J : Junk R) (N : ℕ) (flag : ℤ) (i j : ℕ) (v : R) (hi : i < N)
    (hj : j < N) :
    Ok (matrixMalloc J 0 none (matrixSetSize N 0 (matrixCreate J)).2) fun p =>
      p.1 = .success ∧ setValue J flag i j v p.2 = none := by
  have hN : (N : ℤ) ≠ 0 := by omega
  have hA : (matrixSetSize (N : ℤ) 0 (matrixCreate J)).2 =
      { matrixCreate J with status := .null, n := N, gn := N, base := 0 } := by
    have h0 : ¬ N = 0 := by omega
    have h1 : ¬ (N : ℤ) < 0 := by omega
    simp [matrixSetSize, h0, h1]
  rw [hA]
  unfold matrixMalloc
  rw [if_neg (by simp)]
  rw [Ok_bind]
  refine Ok_fillConst (by simp [matrixCreate]) fun w hw hwv => ?_
  simp only [Ok_pure, true_and]
  unfold setValue
  simp only [matrixCreate, Bool.false_eq_true, if_false]
  rw [if_neg (by simp), if_neg (by omega), if_neg (by omega)]
  obtain ⟨⟨r, ix, vl⟩, hp, hI, hz⟩ := mallocRco_spec J (gn := N) (n := N) (w := w) (by rw [hw]; simp [matrixCreate])
  simp only [if_true, Option.pure_def, Option.bind_eq_bind, Option.bind_some, hp]
  rw [if_neg (by omega)]
  simp only [Int.toNat_natCast, Nat.sub_zero]
  have hwi : w.get i = 0 := hwv i hi
  have hri : r.get i = 0 := hz i hi
  obtain ⟨h1, h2, h3, h4, h5, h6, -, -, -⟩ := hI
  simp only at h1 h2 h3 h4 h5 h6
  have h5i := h5 i hi
  have h6i := h6 i hi
  rw [hwi] at h5i h6i
  have hg : ∃ B', growRow J i 0 ⟨w, r, ix, vl⟩ = some B' ∧ B'.row = r ∧ i < B'.idx.size ∧ i < B'.val.size ∧
      (B'.idx.get i).size = 0 := by
    have hrd : ∀ {β : Type} (a : Arr β), i < a.size → a.rd i = some (a.get i) := fun a h => by simp [Arr.rd, h]
    have hwr : ∀ {β : Type} (a : Arr β) (x : β), i < a.size → a.wr i x = some (a.set i x) := fun a x h => by
      simp [Arr.wr, h]
    refine ⟨⟨w.set i 0, r, ix.set i ⟨0, fun k => J.nat i k⟩, vl.set i ⟨0, fun k => J.val i k⟩⟩, ?_, rfl,
      by simp; omega, by simp; omega, by simp⟩
    simp only [growRow, hrd w (by omega), hrd r (by omega), hrd ix (by omega), hrd vl (by omega),
      Option.bind_eq_bind, Option.bind_some, hwi, hri, if_true, hwr w _ (by omega), Arr.realloc, h5i, h6i,
      hwr ix _ (show i < ix.size by omega), hwr vl _ (show i < vl.size by omega)]
    simp [Arr.realloc, h5i, h6i, hwr ix _ (show i < ix.size by omega), hwr vl _ (show i < vl.size by omega)]
  obtain ⟨B', hB, hr', hi1, hi2, hs⟩ := hg
  simp only [hB, Option.bind_some]
  have : putRow flag i j v B' = none := by
    unfold putRow
    rw [hr']
    have hrd : ∀ {β : Type} (a : Arr β), i < a.size → a.rd i = some (a.get i) := fun a h => by simp [Arr.rd, h]
    rw [hrd r (by omega), hrd B'.idx hi1, hrd B'.val hi2, hri]
    have hf : findCol (B'.idx.get i) 0 j = some 0 := rfl
    simp only [Option.bind_eq_bind, Option.bind_some, hf, Nat.lt_irrefl, if_false]
    have : (B'.idx.get i).wr 0 j = none := by simp [Arr.wr, hs]
    rw [this]
    simp [Arr.wr]
  rw [this]; rfl

/-- fresh memory of the examples -/
def junk7 : Junk ℤ := ⟨fun _ _ => 7, fun _ _ => 7, fun _ => ⟨0, fun _ => 7⟩, fun _ => ⟨0, fun _ => 7⟩⟩

/-- **C03, negative.** `lis_matrix_malloc` called in the middle of assembly raises the recorded row
capacity without growing the buffer: here rows of capacity 1, one element set, `lis_matrix_malloc(A,5,NULL)`
(accepted), and the next `lis_matrix_set_value` in that row is out of bounds. -/
theorem malloc_mid_assembly_oob :
    ∃ (J : Junk ℤ) (A1 A2 A3 : AMat ℤ),
      matrixMalloc J 1 none (matrixSetSize 2 0 (matrixCreate J)).2 = some (.success, A1) ∧
      setValue J 0 0 0 5 A1 = some (.success, A2) ∧
      matrixMalloc J 5 none A2 = some (.success, A3) ∧
      setValue J 0 0 1 6 A3 = none :=
  ⟨junk7, _, _, _, rfl, rfl, rfl, rfl⟩

/-- **C03, negative.** `lis_matrix_set_size` called again with a larger size keeps the row capacities
allocated by `lis_matrix_malloc` for the smaller one; the next `lis_matrix_set_value` reads past them. -/
theorem resize_after_malloc_oob :
    ∃ (J : Junk ℤ) (A1 : AMat ℤ),
      matrixMalloc J 3 none (matrixSetSize 2 0 (matrixCreate J)).2 = some (.success, A1) ∧
      (matrixSetSize 4 0 A1).1 = .success ∧
      setValue J 0 0 0 5 (matrixSetSize 4 0 A1).2 = none :=
  ⟨junk7, _, rfl, rfl, rfl⟩

/-! ### C04: assembling -/

/-- **C04 (CSR).** -/
theorem rco2csr_spec [AddCommMonoid R] (J : Junk R) (A : AMat R) (h : A.Ready) (hs : A.status = .assembling) :
    Ok (rco2csr J A) fun C => C.WF ∧ C.n = A.n ∧ C.np = A.n ∧ C.NoDup ∧
      (∀ i j, i < A.n → C.entry i j = A.mat i j) ∧
      ∀ i j, i < A.n → ((∃ k, C.ptr.get i ≤ k ∧ k < C.ptr.get (i + 1) ∧ C.index.get k = j) ↔ A.stored i j) := by
  have hI : A.bufs.Inv A.n A.gn := by
    rcases h.st with ⟨hh, _⟩ | ⟨_, _, hI⟩
    · rw [hs] at hh; cases hh
    · exact hI
  refine (rco2csr_rows J A hI).mono ?_
  rintro C ⟨c1, c2, hR⟩
  refine ⟨hR.wf fun i hi e he => ?_, c1, c2, hR.nodup fun i hi => hI.rowList_nodup (by omega),
    fun i j hi => ?_, fun i j hi => ?_⟩
  · rw [c2, h.sq]; exact hI.rowList_col (by omega) he
  · rw [hR.entry (by omega), AMat.mat, if_pos hs, Bufs.entry_rowList]
  · have p1 := hR.ptr i (by omega)
    have p2 := hR.ptr (i + 1) (by omega)
    rw [concatRows_succ, List.length_append, Bufs.rowList_length] at p2
    have key : ∀ q, q < A.bufs.row.get i → C.index.get (C.ptr.get i + q) = (A.bufs.idx.get i).get q := by
      intro q hq
      have := congrArg Prod.fst (hR.fil.row (i := i) (by omega) (q := q) (by simpa using hq))
      rw [← p1] at this
      simpa [Bufs.rowList] using this
    unfold AMat.stored Bufs.Stored
    constructor
    · rintro ⟨k, k1, k2, k3⟩
      refine ⟨hs, k - C.ptr.get i, by omega, ?_⟩
      rw [← key _ (by omega), show C.ptr.get i + (k - C.ptr.get i) = k by omega, k3]
    · rintro ⟨_, q, q1, q2⟩
      exact ⟨C.ptr.get i + q, by omega, by omega, by rw [key q q1, q2]⟩

/-- **C04 (CSC).** -/
theorem rco2csc_spec [AddCommMonoid R] (J : Junk R) (A : AMat R) (h : A.Ready) (hs : A.status = .assembling) :
    Ok (rco2csc J A) fun C => C.WF ∧ C.n = A.n ∧ C.np = A.n ∧
      ∀ i j, i < A.n → j < A.n → C.entry i j = A.mat i j := by
  have hI : A.bufs.Inv A.n A.gn := by
    rcases h.st with ⟨hh, _⟩ | ⟨_, _, hI⟩
    · rw [hs] at hh; cases hh
    · exact hI
  refine (rco2csc_cols J A hI h.sq.symm).mono ?_
  rintro C ⟨c1, c2, hR⟩
  refine ⟨hR.wf fun e he => ?_, c1, c2, fun i j hi hj => ?_⟩
  · obtain ⟨i, hi, he⟩ := concatRows_mem.1 he
    simp only [List.mem_map] at he
    obtain ⟨e', _, rfl⟩ := he
    simpa [c1] using hi
  · rw [hR.entry (by omega), byCol_sum _ _ hi, AMat.mat, if_pos hs, Bufs.entry_rowList]

/-- **C01 + C04, end to end.** Create, size, any sequence of set-value calls, convert to CSR: if at
least one call was in range, the CSR matrix is well formed, has no duplicates, and its entries are what
the calls mean. -/
theorem create_set_assemble_csr [AddCommMonoid R] (J : Junk R) (cs : List (SetCall R)) (N : ℕ) (hN : 0 < N)
    (hne : ∃ c ∈ cs, c.InRange false N) :
    Ok (do let A ← setCalls J cs (matrixSetSize N 0 (matrixCreate J)).2; rco2csr J A) fun C =>
      C.WF ∧ C.NoDup ∧ C.n = N ∧
      ∀ i j, i < N → C.entry i j = specSets false N (fun _ _ => 0) cs i j := by
  have hok : (matrixSetSize (N : ℤ) 0 (matrixCreate J)).1 = .success :=
    (setSize_success_iff _ _ _).2 ⟨by omega, le_rfl, Or.inl (by omega), Or.inl rfl⟩
  obtain ⟨hr, hn, hg, _, ho, _⟩ := create_setSize_ready J N 0 hok
  rw [if_neg (by omega)] at hn
  have hc := create_setCalls_spec J cs N 0 hok
  have hc' := setCalls_spec J cs _ hr
  rw [Ok_bind]
  refine (hc.conj hc').mono ?_
  rintro A ⟨⟨a1, a2, a3, _⟩, b1, b2, _⟩
  rw [if_neg (by omega)] at a1
  have aN : A.n = N := by omega
  have hs : A.status = .assembling := by
    obtain ⟨c, hcm, hin⟩ := hne
    unfold SetCall.InRange at hin
    have := (a3 (userIdx false c.i).toNat (userIdx false c.j).toNat (by omega)).2
      ⟨c, hcm, by unfold SetCall.InRange; rw [aN]; exact hin, by omega, by omega⟩
    exact this.1
  refine (rco2csr_spec J A b1 hs).mono ?_
  rintro C ⟨c1, c2, c3, c4, c5, _⟩
  refine ⟨c1, c4, by omega, fun i j hi => ?_⟩
  rw [c5 i j (by omega), a2 i j (by omega), aN]

/-! ### the theorems are not vacuous -/

/-- a 3×3 assembly with an overwrite, an addition, a rejected call and a row that outgrows its
capacity, then conversion to CSR and CSC -/
def exCalls : List (SetCall ℤ) :=
  [⟨0, 0, 0, 4⟩, ⟨0, 2, 1, -1⟩, ⟨1, 0, 0, 3⟩, ⟨0, 0, 2, 9⟩, ⟨0, 3, 0, 5⟩, ⟨0, 2, 1, 8⟩, ⟨1, 1, 1, 2⟩]

example : ∃ c ∈ exCalls, c.InRange false 3 := ⟨_, List.mem_cons_self .., by decide⟩

example : (do let A ← setCalls junk7 exCalls (matrixSetSize 3 0 (matrixCreate junk7)).2
              let C ← rco2csr junk7 A
              pure (C.ptr.toList, C.index.toList, C.value.toList)) =
    some ([0, 2, 3, 4], [0, 2, 1, 1], [7, 9, 2, 8]) := by decide

example : (do let A ← setCalls junk7 exCalls (matrixSetSize 3 0 (matrixCreate junk7)).2
              let C ← rco2csc junk7 A
              pure (C.ptr.toList, C.index.toList, C.value.toList)) =
    some ([0, 1, 3, 4], [0, 1, 2, 0], [7, 2, 8, 9]) := by decide

example : ((matrixMalloc junk7 1 none (matrixSetSize 3 0 (matrixCreate junk7)).2).bind fun p =>
      (setCalls junk7 exCalls p.2).bind fun A => (rco2csr junk7 A).map fun C => C.value.toList) =
    some [7, 9, 2, 8] := by decide

example : (matrixSetSize 3 0 (matrixCreate junk7)).2.Ready :=
  (create_setSize_ready junk7 3 0 rfl).1

example : ((setValues junk7 0 2 (Arr.ofList [1, 2, 3, 4]) (matrixSetSize 2 0 (matrixCreate junk7)).2).bind
      fun p => (rco2csr junk7 p.2).map fun C => (C.index.toList, C.value.toList)) =
    some ([0, 1, 0, 1], [1, 2, 3, 4]) := by decide

end Lis
