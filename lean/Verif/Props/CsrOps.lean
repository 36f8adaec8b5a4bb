import Verif.Lemmas.CsrOps
import Verif.Spec.Mul
import Verif.Props.Sort
import Mathlib.Data.Real.Sqrt

/-!
# C10–C13 for CSR: split/merge, diagonal, shift, scaling (and transpose, norm, sort)
-/

namespace Lis
open Finset
variable {R : Type}

/-- row `i` stores exactly one diagonal element -/
def Csr.DiagOnce (A : Csr R) (i : ℕ) : Prop :=
  ∃ k, (A.ptr.get i ≤ k ∧ k < A.ptr.get (i + 1) ∧ A.index.get k = i) ∧
    ∀ l, A.ptr.get i ≤ l → l < A.ptr.get (i + 1) → A.index.get l = i → l = k

theorem Csr.DiagOnce.of_nodup {A : Csr R} (hd : A.NoDup) {i : ℕ} (hi : i < A.n) (h : A.StoresDiag i) :
    A.DiagOnce i := by
  obtain ⟨k, h1, h2, h3⟩ := h
  exact ⟨k, ⟨h1, h2, h3⟩, fun l l1 l2 l3 => hd i hi l k l1 l2 h1 h2 (l3.trans h3.symm)⟩

/-- every stored element of `L` lies strictly below the diagonal, every one of `U` strictly above -/
structure SplitCsr.Strict (A : SplitCsr R) : Prop where
  low : ∀ i, i < A.n → ∀ k, A.L.ptr.get i ≤ k → k < A.L.ptr.get (i + 1) → A.L.index.get k < i
  up : ∀ i, i < A.n → ∀ k, A.U.ptr.get i ≤ k → k < A.U.ptr.get (i + 1) → i < A.U.index.get k

theorem Csr.Rows.mem {A : Csr R} {L : ℕ → List (ℕ × R)} (h : A.Rows L) {i : ℕ} (hi : i < A.n) {k : ℕ}
    (h1 : A.ptr.get i ≤ k) (h2 : k < A.ptr.get (i + 1)) : (A.index.get k, A.value.get k) ∈ L i := by
  have hp := h.ptr i (by omega)
  have hp' := h.ptr (i + 1) (by omega)
  rw [concatRows_succ, List.length_append] at hp'
  have := h.fil.row hi (q := k - A.ptr.get i) (by omega)
  simp only [show (concatRows i L).length + (k - A.ptr.get i) = k by omega] at this
  rw [this]; exact List.getElem_mem _

/-- **C10 (split).** For any contents of fresh memory: `L` holds exactly the strictly lower part of `A`, `U` exactly
the strictly upper part, and `D` the diagonal of every row that stores its diagonal once. -/
theorem splitCsr_parts [AddCommMonoid R] (junk : ℕ → ℕ → ℕ) (vjunk : ℕ → ℕ → R) (djunk : ℕ → R) {A : Csr R}
    (h : A.WF) (hnp : A.n ≤ A.np) :
    Ok (splitCsr junk vjunk djunk A) fun S => S.WF ∧ S.Strict ∧ S.n = A.n ∧ S.np = A.np ∧
      (∀ i j, i < A.n → S.L.entry i j = if j < i then A.entry i j else 0) ∧
      (∀ i j, i < A.n → S.U.entry i j = if i < j then A.entry i j else 0) ∧
      (∀ i, i < A.n → A.DiagOnce i → S.D.get i = A.entry i i) ∧
      (∀ i, i < A.n → ¬ A.StoresDiag i → S.D.get i = djunk i) := by
  refine (splitCsr_spec' junk vjunk djunk h hnp).mono ?_
  rintro S ⟨h1, h2, l1, l2, u1, u2, hl, hu, hd, hD⟩
  have hlow : ∀ i e, e ∈ A.lowRow i → e ∈ A.rowList i ∧ e.1 < i := fun i e he => by
    simpa [Csr.lowRow] using he
  have hup : ∀ i e, e ∈ A.upRow i → e ∈ A.rowList i ∧ i < e.1 := fun i e he => by
    simpa [Csr.upRow] using he
  refine ⟨⟨by omega, by omega, by omega, by omega, by omega, by omega, hl.wf fun i hi e he => ?_,
    hu.wf fun i hi e he => ?_⟩, ⟨fun i hi k k1 k2 => ?_, fun i hi k k1 k2 => ?_⟩, h1, h2, fun i j hi => ?_,
    fun i j hi => ?_, fun i hi hdo => ?_, fun i hi hno => ?_⟩
  · rw [l2]; exact h.rowList_col (by omega) (hlow i e he).1
  · rw [u2]; exact h.rowList_col (by omega) (hup i e he).1
  · exact (hlow i _ (hl.mem (by omega) k1 k2)).2
  · exact (hup i _ (hu.mem (by omega) k1 k2)).2
  · rw [hl.entry (by omega), Csr.entry_rowList]; exact filter_keysum (A.rowList i) (· < i) j
  · rw [hu.entry (by omega), Csr.entry_rowList]; exact filter_keysum (A.rowList i) (· > i) j
  · obtain ⟨k, ⟨k1, k2, k3⟩, k4⟩ := hdo
    rw [hD i hi, Csr.entry_single k1 k2 k3 k4]
    refine diagSlot_once (Csr.mem_rowList.2 ⟨k, k1, k2, by rw [k3]⟩) fun e he hei => ?_
    obtain ⟨l, l1, l2, rfl⟩ := Csr.mem_rowList.1 he
    rw [k4 l l1 l2 hei]
  · rw [hD i hi]
    refine diagSlot_absent fun e he hei => hno ?_
    obtain ⟨l, l1, l2, rfl⟩ := Csr.mem_rowList.1 he
    exact ⟨l, l1, l2, hei⟩

/-- **C10 (split).** `L + D + U = A` when every row stores its diagonal exactly once. -/
theorem splitCsr_spec [AddCommMonoid R] (junk : ℕ → ℕ → ℕ) (vjunk : ℕ → ℕ → R) (djunk : ℕ → R) {A : Csr R}
    (h : A.WF) (hnp : A.n ≤ A.np) (hd : ∀ i, i < A.n → A.DiagOnce i) :
    Ok (splitCsr junk vjunk djunk A) fun S => S.WF ∧ S.Strict ∧ S.n = A.n ∧ S.np = A.np ∧
      ∀ i j, i < A.n → S.entry i j = A.entry i j := by
  refine (splitCsr_parts junk vjunk djunk h hnp).mono ?_
  rintro S ⟨a1, a2, a3, a4, a5, a6, a7, -⟩
  refine ⟨a1, a2, a3, a4, fun i j hi => ?_⟩
  unfold SplitCsr.entry
  rw [a5 i j hi, a6 i j hi, a7 i hi (hd i hi)]
  rcases Nat.lt_trichotomy i j with hij | rfl | hij
  · rw [if_neg (by omega), if_neg (by omega), if_pos hij, zero_add, zero_add]
  · simp
  · rw [if_neg (by omega), if_pos hij, if_neg (by omega), zero_add, add_zero]

/-- a 2×2 matrix whose row 0 has no stored diagonal -/
def noDiagCsr : Csr ℤ := ⟨2, 2, 2, .ofList [0, 1, 2], .ofList [1, 1], .ofList [5, 7]⟩

/-- **C10, exception.** If a row stores no diagonal element (legal in CSR: the element is 0), the diagonal of the split
matrix is whatever the fresh memory held: whenever that is not 0, `L+D+U ≠ A`. -/
theorem splitCsr_missing_diagonal [AddCommMonoid R] (junk : ℕ → ℕ → ℕ) (vjunk : ℕ → ℕ → R) (djunk : ℕ → R)
    {A : Csr R} (h : A.WF) (hnp : A.n ≤ A.np) {i : ℕ} (hi : i < A.n) (hno : ¬ A.StoresDiag i) (hz : djunk i ≠ 0) :
    Ok (splitCsr junk vjunk djunk A) fun S => S.entry i i = djunk i ∧ S.entry i i ≠ A.entry i i := by
  refine (splitCsr_parts junk vjunk djunk h hnp).mono ?_
  rintro S ⟨-, -, -, -, a5, a6, -, a8⟩
  have h1 : S.entry i i = djunk i := by
    unfold SplitCsr.entry
    rw [a5 i i hi, a6 i i hi, a8 i hi hno]; simp
  refine ⟨h1, ?_⟩
  rw [h1, Csr.entry_absent fun k k1 k2 k3 => hno ⟨k, k1, k2, k3⟩]
  exact hz

/-- **C10 (merge).** `lis_matrix_merge` rebuilds `L + D + U`, for every split matrix. -/
theorem mergeCsr_spec [AddCommMonoid R] (junk : ℕ → ℕ → ℕ) (vjunk : ℕ → R) {A : SplitCsr R} (h : A.WF) :
    Ok (mergeCsr junk vjunk A) fun C => C.WF ∧ C.n = A.n ∧ C.np = A.np ∧ C.nnz = A.L.nnz + A.U.nnz + A.n ∧
      (∀ i, i < A.n → C.StoresDiag i) ∧ ∀ i j, i < A.n → C.entry i j = A.entry i j := by
  refine (mergeCsr_spec' junk vjunk h).mono ?_
  rintro C ⟨h1, h2, hC⟩
  have hle := h.le
  have hcol : ∀ i, i < C.n → ∀ e ∈ A.mrow i, e.1 < C.np := by
    intro i hi e he
    simp only [SplitCsr.mrow, List.mem_append, List.mem_cons] at he
    rcases he with he | rfl | he
    · have := h.lwf.rowList_col (by rw [h.ln]; omega) he; rw [h.lnp] at this; omega
    · simp only; omega
    · have := h.uwf.rowList_col (by rw [h.un]; omega) he; rw [h.unp] at this; omega
  refine ⟨hC.wf hcol, h1, h2, ?_, fun i hi => ?_, fun i j hi => ?_⟩
  · rw [hC.nnz, h1, mrow_len h le_rfl, ← h.lwf.ptr.last, ← h.uwf.ptr.last, h.ln, h.un]
  · have hp := hC.ptr i (by omega)
    have hp' := hC.ptr (i + 1) (by omega)
    have hq : (A.L.rowList i).length < (A.mrow i).length := by simp [SplitCsr.mrow]
    have := hC.fil.row (i := i) (by omega) hq
    rw [concatRows_succ, List.length_append] at hp'
    refine ⟨(concatRows i A.mrow).length + (A.L.rowList i).length, by omega, by omega, ?_⟩
    have h3 := congrArg Prod.fst this
    simpa [SplitCsr.mrow] using h3
  · rw [hC.entry (by omega)]
    unfold SplitCsr.entry SplitCsr.mrow
    rw [List.map_append, List.sum_append, List.map_cons, List.sum_cons, Csr.entry_rowList, Csr.entry_rowList]
    rw [← add_assoc, add_comm (List.sum _) (ite _ _ _)]

/-- **C10 (round trip).** Splitting and merging gives back the same matrix. -/
theorem split_merge [AddCommMonoid R] (junk junk' : ℕ → ℕ → ℕ) (vjunk : ℕ → ℕ → R) (vjunk' djunk : ℕ → R) {A : Csr R}
    (h : A.WF) (hnp : A.n ≤ A.np) (hd : ∀ i, i < A.n → A.DiagOnce i) :
    Ok ((splitCsr junk vjunk djunk A).bind (mergeCsr junk' vjunk')) fun C => C.WF ∧ C.n = A.n ∧ C.np = A.np ∧
      ∀ i j, i < A.n → C.entry i j = A.entry i j := by
  rw [Ok_obind]
  refine (splitCsr_spec junk vjunk djunk h hnp hd).mono ?_
  rintro S ⟨a1, -, a3, a4, a5⟩
  refine (mergeCsr_spec junk' vjunk' a1).mono ?_
  rintro C ⟨b1, b2, b3, -, -, b5⟩
  exact ⟨b1, by omega, by omega, fun i j hi => by rw [b5 i j (by omega), a5 i j hi]⟩

/-! ### diagonal -/

/-- **C11.** `lis_matrix_get_diagonal` on CSR: `d_i = A(i,i)`, 0 where it is not stored. -/
theorem getDiagonalCsr_spec [AddCommMonoid R] {A : Csr R} (h : A.WF)
    (hd : ∀ i, i < A.n → A.StoresDiag i → A.DiagOnce i) (d : Arr R) (hsz : A.n ≤ d.size) :
    Ok (getDiagonalCsr A d) fun d' => d'.size = d.size ∧ (∀ i, i < A.n → d'.get i = A.entry i i) ∧
      SameFrom A.n d.get d'.get := by
  have hps := h.ptr.size
  have his := h.isz
  have hvs := h.vsz
  unfold getDiagonalCsr
  refine Ok_loop_fill (fun i => A.entry i i) ?_ ?_
  · intro i y _ hi hy _ _
    have hm := h.ptr.mono i hi
    simp only [Ok_bind, Ok_wr, Ok_rd]
    refine ⟨by omega, by omega, by omega, ?_⟩
    refine Ok_loopB (fun j d => d = y.set i 0 ∧ ∀ k, A.ptr.get i ≤ k → k < j → A.index.get k ≠ i)
      ⟨rfl, fun k k1 k2 => by omega⟩ ?_ ?_
    · rintro j _ j1 j2 ⟨rfl, hj⟩
      have hk : j < A.nnz := h.ptr.lt_nnz hi j2
      simp only [Ok_bind, Ok_rd, Ok_ite]
      refine ⟨by omega, fun hc => ?_, fun hc => ?_⟩
      · simp only [Ok_wr, Ok_pure]
        refine ⟨by omega, by simpa using (by omega : i < y.size), ?_⟩
        obtain ⟨k, ⟨k1, k2, k3⟩, k4⟩ := hd i hi ⟨j, j1, j2, hc.symm⟩
        obtain rfl : j = k := k4 j j1 j2 hc.symm
        rw [Arr.set_set, Csr.entry_single j1 j2 hc.symm k4]; rfl
      · simp only [Ok_pure, Bool.false_eq_true, if_false]
        refine ⟨trivial, fun k k1 k2 => ?_⟩
        rcases Nat.lt_or_ge k j with hkj | hkj
        · exact hj k k1 hkj
        · obtain rfl : k = j := by omega
          exact fun h => hc h.symm
    · rintro _ ⟨rfl, hj⟩
      rw [Csr.entry_absent fun k k1 k2 => hj k k1 (by omega)]
  · intro y h1 h2 h3
    exact ⟨h1, fun i hi => h2 i (by omega) hi, fun i hi => h3 i (by omega)⟩

/-- **C11** for a split matrix. -/
theorem getDiagonalSplitCsr_spec [AddCommMonoid R] {A : SplitCsr R} (h : A.WF) (hs : A.Strict) (d : Arr R)
    (hsz : A.n ≤ d.size) :
    Ok (getDiagonalSplitCsr A d) fun d' => d'.size = d.size ∧ (∀ i, i < A.n → d'.get i = A.entry i i) ∧
      SameFrom A.n d.get d'.get := by
  have hds := h.dsz
  unfold getDiagonalSplitCsr
  refine Ok_loop_fill (fun i => A.entry i i) ?_ ?_
  · intro i y _ hi hy _ _
    simp only [Ok_bind, Ok_rd, Ok_wr]
    refine ⟨by omega, by omega, ?_⟩
    unfold SplitCsr.entry
    rw [Csr.entry_absent fun k k1 k2 => by have := hs.low i hi k k1 k2; omega,
      Csr.entry_absent fun k k1 k2 => by have := hs.up i hi k k1 k2; omega]
    simp
  · intro y h1 h2 h3
    exact ⟨h1, fun i hi => h2 i (by omega) hi, fun i hi => h3 i (by omega)⟩

/-! ### shift -/

/-- one row with one element decreased -/
theorem row_sub [AddCommGroup R] {A : Csr R} {i k0 : ℕ} (h1 : A.ptr.get i ≤ k0) (h2 : k0 < A.ptr.get (i + 1))
    (v : ℕ → R) (sigma : R) (hv : ∀ k, A.ptr.get i ≤ k → k < A.ptr.get (i + 1) →
      v k = A.value.get k - if k = k0 then sigma else 0) (j : ℕ) :
    (∑ k ∈ Ico (A.ptr.get i) (A.ptr.get (i + 1)), if A.index.get k = j then v k else 0) =
      A.entry i j - if A.index.get k0 = j then sigma else 0 := by
  unfold Csr.entry
  have : ∀ k ∈ Ico (A.ptr.get i) (A.ptr.get (i + 1)), (if A.index.get k = j then v k else 0) =
      (if A.index.get k = j then A.value.get k else 0) -
        if k = k0 then (if A.index.get k0 = j then sigma else 0) else 0 := by
    intro k hk
    rw [mem_Ico] at hk
    rw [hv k hk.1 hk.2]
    by_cases hkj : A.index.get k = j
    · by_cases hk0 : k = k0
      · subst hk0; simp [hkj]
      · simp [hkj, hk0]
    · by_cases hk0 : k = k0
      · subst hk0; simp [hkj]
      · simp [hkj, hk0]
  rw [sum_congr rfl this, sum_sub_distrib, sum_ite_eq' , if_pos (mem_Ico.2 ⟨h1, h2⟩)]

/-- **C12.** `lis_matrix_shift_diagonal` subtracts `sigma` from `A(i,i)` for every row that stores a diagonal element, and
leaves every other row (silently) as it is. -/
theorem shiftDiagonalCsr_spec [AddCommGroup R] {A : Csr R} (h : A.WF) (sigma : R) :
    Ok (shiftDiagonalCsr A sigma) fun B => B.WF ∧ B.n = A.n ∧ B.np = A.np ∧ ∀ i j, i < A.n →
      (A.StoresDiag i → B.entry i j = A.entry i j - if i = j then sigma else 0) ∧
      (¬ A.StoresDiag i → B.entry i j = A.entry i j) := by
  have hps := h.ptr.size
  have his := h.isz
  have hvs := h.vsz
  obtain ⟨P, hPd⟩ : ∃ P : ℕ → (ℕ → R) → Prop, P = fun i v => ∀ j,
    (A.StoresDiag i → (∑ k ∈ Ico (A.ptr.get i) (A.ptr.get (i + 1)), if A.index.get k = j then v k else 0) =
      A.entry i j - if i = j then sigma else 0) ∧
    (¬ A.StoresDiag i → (∑ k ∈ Ico (A.ptr.get i) (A.ptr.get (i + 1)), if A.index.get k = j then v k else 0) =
      A.entry i j) := ⟨_, rfl⟩
  have hP : ∀ r (u v : ℕ → R), (∀ k, A.ptr.get r ≤ k → k < A.ptr.get (r + 1) → u k = v k) → P r u → P r v := by
    intro r u v huv hu
    subst hPd
    intro j
    have : (∑ k ∈ Ico (A.ptr.get r) (A.ptr.get (r + 1)), if A.index.get k = j then v k else 0) =
        ∑ k ∈ Ico (A.ptr.get r) (A.ptr.get (r + 1)), if A.index.get k = j then u k else 0 := by
      refine sum_congr rfl fun k hk => ?_
      rw [mem_Ico] at hk
      rw [huv k hk.1 hk.2]
    rw [this]; exact hu j
  unfold shiftDiagonalCsr
  rw [Ok_bind]
  refine Ok_loop_le (fun i v => RowsDone A P i v) (Nat.zero_le _) (RowsDone.start A P) ?_ ?_
  · intro i v _ hi hI
    have hm := h.ptr.mono i hi
    have hsz := hI.size
    simp only [Ok_bind, Ok_rd]
    refine ⟨by omega, by omega, ?_⟩
    refine Ok_loopB (fun j w => w = v ∧ ∀ k, A.ptr.get i ≤ k → k < j → A.index.get k ≠ i)
      ⟨rfl, fun k k1 k2 => by omega⟩ ?_ ?_
    · rintro j _ j1 j2 ⟨rfl, hj⟩
      have hk : j < A.nnz := h.ptr.lt_nnz hi j2
      simp only [Ok_bind, Ok_rd, Ok_ite]
      refine ⟨by omega, fun hc => ?_, fun hc => ?_⟩
      · simp only [Ok_wr, Ok_pure, if_true]
        refine ⟨by omega, by omega, ?_⟩
        refine hI.step h hP hi rfl (fun k hk => Arr.set_get_ne _ _ (by omega)) ?_
        subst hPd
        intro j'
        refine ⟨fun _ => ?_, fun hno => absurd ⟨j, j1, j2, hc.symm⟩ hno⟩
        rw [row_sub j1 j2 _ sigma (fun k k1 k2 => ?_) j', ← hc]
        rw [Arr.set_get]
        split
        · next hkj => rw [hkj, hI.later j j1]
        · rw [hI.later k k1, sub_zero]
      · simp only [Ok_pure, Bool.false_eq_true, if_false]
        refine ⟨trivial, fun k k1 k2 => ?_⟩
        rcases Nat.lt_or_ge k j with hkj | hkj
        · exact hj k k1 hkj
        · obtain rfl : k = j := by omega
          exact fun h => hc h.symm
    · rintro w ⟨rfl, hj⟩
      refine hI.step h hP hi rfl (fun _ _ => rfl) ?_
      subst hPd
      intro j
      refine ⟨fun ⟨k, k1, k2, k3⟩ => absurd k3 (hj k k1 (by omega)), fun _ => ?_⟩
      refine sum_congr rfl fun k hk => ?_
      rw [mem_Ico] at hk
      rw [hI.later k hk.1]
  · intro v hI
    have hsz := hI.size
    rw [Ok_pure]
    refine ⟨⟨h.ptr, h.isz, by simpa only [hsz] using hvs, h.idx⟩, rfl, rfl, fun i j hi => ?_⟩
    have := hI.done i hi
    subst hPd
    exact this j

/-- **C12** when every row stores its diagonal: `A ↦ A - sigma I`. -/
theorem shiftDiagonalCsr_full [AddCommGroup R] {A : Csr R} (h : A.WF) (sigma : R)
    (hd : ∀ i, i < A.n → A.StoresDiag i) :
    Ok (shiftDiagonalCsr A sigma) fun B => B.WF ∧ B.n = A.n ∧ B.np = A.np ∧ ∀ i j, i < A.n →
      B.entry i j = A.entry i j - if i = j then sigma else 0 :=
  (shiftDiagonalCsr_spec h sigma).mono fun _ ⟨a1, a2, a3, a4⟩ => ⟨a1, a2, a3, fun i j hi => (a4 i j hi).1 (hd i hi)⟩

/-- **C12** for a split matrix: always `A - sigma I`. -/
theorem shiftDiagonalSplitCsr_spec [AddCommGroup R] {A : SplitCsr R} (h : A.WF) (sigma : R) :
    Ok (shiftDiagonalSplitCsr A sigma) fun B => B.WF ∧ B.n = A.n ∧ B.np = A.np ∧ ∀ i j, i < A.n →
      B.entry i j = A.entry i j - if i = j then sigma else 0 := by
  have hds := h.dsz
  unfold shiftDiagonalSplitCsr
  rw [Ok_bind]
  refine Ok_loop_fill (fun i => A.D.get i - sigma) ?_ ?_
  · intro i y _ hi hy hg _
    simp only [Ok_bind, Ok_rd, Ok_wr]
    exact ⟨by omega, by omega, by rw [hg i (by omega)]⟩
  · intro y h1 h2 h3
    rw [Ok_pure]
    refine ⟨⟨by simp only; omega, h.le, h.ln, h.lnp, h.un, h.unp, h.lwf, h.uwf⟩, rfl, rfl, fun i j hi => ?_⟩
    unfold SplitCsr.entry
    simp only [h2 i (by omega) hi]
    split <;> abel

end Lis
