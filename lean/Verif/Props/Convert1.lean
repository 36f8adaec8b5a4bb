import Verif.Lemmas.Convert1b

/-!
# C08, C09: conversions between CSR and CSC, MSR, ELL, COO, DNS

Each conversion is defined (no access outside its arrays) for every well-formed input and every content
of freshly allocated memory, and keeps the matrix.
-/

namespace Lis
open Finset
variable {R : Type}

/-! ### CSC -/

theorem Csc.Cols.nodup {A : Csc R} {full : List (ℕ × ℕ × R)} (h : A.Cols full)
    (hd : ∀ c, c < A.np → ((byKey c full).map Prod.fst).Nodup) : A.NoDup := by
  intro j hj k l k1 k2 l1 l2 he
  obtain ⟨iw, hs⟩ := h.scat
  have hsc := h.segs.succ j hj
  have e1 := congrArg Prod.fst (hs.put j hj (k - A.ptr.get j) (by omega))
  have e2 := congrArg Prod.fst (hs.put j hj (l - A.ptr.get j) (by omega))
  simp only [show A.ptr.get j + (k - A.ptr.get j) = k by omega, show A.ptr.get j + (l - A.ptr.get j) = l by omega] at e1 e2
  have := (List.Nodup.getElem_inj_iff (hd j hj) (i := k - A.ptr.get j) (j := l - A.ptr.get j)
    (hi := by simp; omega) (hj := by simp; omega)).1 (by simp [← e1, ← e2, he])
  omega

theorem byCol_nodup {n : ℕ} {L : ℕ → List (ℕ × R)} (hd : ∀ i, i < n → ((L i).map Prod.fst).Nodup) (c : ℕ) :
    ((byKey c (byCol n L)).map Prod.fst).Nodup := by
  have e : ∀ m, (byKey c (byCol m L)).map Prod.fst =
      concatRows m fun i => (byKey c ((L i).map fun e => (e.1, (i, e.2)))).map Prod.fst := by
    intro m
    induction m with
    | zero => rfl
    | succ m ih =>
      unfold byCol at ih ⊢
      rw [concatRows_succ, byKey_append, List.map_append, ih, concatRows_succ]
  have hrow : ∀ i, (byKey c ((L i).map fun e => (e.1, (i, e.2)))).map Prod.fst = (byKey c (L i)).map fun _ => i := by
    intro i
    generalize L i = l
    induction l with
    | nil => rfl
    | cons x l ih =>
      rw [List.map_cons, show ∀ (a : ℕ × ℕ × R) l, a :: l = [a] ++ l from fun _ _ => rfl, byKey_append, byKey_single,
        show x :: l = [x] ++ l from rfl, byKey_append, byKey_single]
      simp only [List.map_append, ih]
      split <;> simp
  have hone : ∀ i, i < n → (byKey c (L i)).length ≤ 1 := by
    intro i hi
    have := hd i hi
    revert this
    generalize L i = l
    intro hl
    have : ∀ l : List (ℕ × R), (byKey c l).length = (l.map Prod.fst).count c := by
      intro l
      induction l with
      | nil => rfl
      | cons x l ih =>
        rw [show x :: l = [x] ++ l from rfl, byKey_append, byKey_single, List.length_append, ih]
        simp only [List.map_append, List.map_cons, List.map_nil, List.count_append, List.count_singleton]
        by_cases hx : x.1 = c <;> simp [hx]
    rw [this]
    exact List.nodup_iff_count_le_one.1 hl c
  rw [e]
  unfold concatRows
  rw [List.nodup_flatMap]
  refine ⟨fun i hi => ?_, ?_⟩
  · rw [hrow]
    have := hone i (by simpa using hi)
    match hb : byKey c (L i), this with
    | [], _ => simp
    | [a], _ => simp
    | _ :: _ :: _, h => simp at h
  · refine List.Pairwise.imp_of_mem ?_ (List.nodup_range (n := n))
    intro a b _ _ hab
    rw [Function.onFun, List.disjoint_left]
    intro x hx hy
    rw [hrow] at hx hy
    simp only [List.mem_map] at hx hy
    obtain ⟨_, _, rfl⟩ := hx
    obtain ⟨_, _, hh⟩ := hy
    exact hab hh.symm

/-- **C08 (CSR → CSC).** -/
theorem csr2csc_spec [AddCommMonoid R] (junk : ℕ → ℕ → ℕ) (vjunk : ℕ → R) (A : Csr R) (h : A.WF) :
    Ok (csr2csc junk vjunk A) fun B => B.WF ∧ B.n = A.n ∧ B.np = A.np ∧ (A.NoDup → B.NoDup) ∧
      ∀ i j, i < A.n → j < A.np → B.entry i j = A.entry i j := by
  unfold csr2csc
  rw [Ok_bind]
  refine (transposeArrays_spec h _ _ (by omega) le_rfl junk vjunk).mono ?_
  rintro ⟨ptr, index, value⟩ ⟨h1, h2⟩
  rw [Ok_pure]
  refine ⟨⟨h1.ptr, h1.isz, h1.vsz, h1.idx⟩, rfl, rfl, fun hd => h2.nodup fun c _ => byCol_nodup (fun i hi => hd.rowList hi) c,
    fun i j hi hj => ?_⟩
  rw [h2.entry hj, byCol_sum _ _ hi, Csr.entry_rowList]

/-- **C09 (CSC → CSR).** -/
theorem csc2csr_spec [AddCommMonoid R] (junk : ℕ → ℕ → ℕ) (vjunk : ℕ → R) (A : Csc R) (h : A.WF) :
    Ok (csc2csr junk vjunk A) fun C => C.WF ∧ C.n = A.n ∧ C.np = A.np ∧
      ∀ i j, i < A.n → j < A.np → C.entry i j = A.entry i j := by
  unfold csc2csr
  rw [Ok_bind]
  refine (transposeArrays_spec (Csc.asCsr_wf h) _ _ le_rfl (Nat.le_succ _) junk vjunk).mono ?_
  rintro ⟨ptr, index, value⟩ ⟨h1, h2⟩
  rw [Ok_pure]
  refine ⟨h1, rfl, rfl, fun i j hi hj => ?_⟩
  have := h2.entry (show i < A.asCsr.np from hi) (i := j)
  rw [byCol_sum _ _ (show j < A.asCsr.n from hj), ← Csr.entry_rowList, Csc.asCsr_entry] at this
  exact this

/-! ### COO -/

/-- **C08 (CSR → COO).** -/
theorem csr2coo_spec [AddCommMonoid R] (junk : ℕ → ℕ → ℕ) (vjunk : ℕ → R) (A : Csr R) (h : A.WF) (hsq : A.np = A.n) :
    Ok (csr2coo junk vjunk A) fun B => B.WF ∧ B.n = A.n ∧ ∀ i j, i < A.n → B.entry i j = A.entry i j := by
  refine (csr2coo_spec' junk vjunk h).mono ?_
  rintro B ⟨b1, b2, b3, b4, b5, b6⟩
  have hl : (concatRows A.n fun i => (A.rowList i).map fun e => (i, e)).length = A.nnz := by
    rw [h.rows.nnz, concatRows_length, concatRows_length]; simp
  have hall : ∀ k, k < A.nnz → B.row.get k < A.n ∧ B.col.get k < A.n := by
    intro k hk
    have e := b6 k (by omega)
    obtain ⟨i, hi, he⟩ := concatRows_mem.1 (List.getElem_mem
      (l := concatRows A.n fun i => (A.rowList i).map fun e => (i, e)) (n := k) (by omega))
    rw [← e] at he
    simp only [List.mem_map, Prod.mk.injEq] at he
    obtain ⟨x, hx, e1, e2⟩ := he
    have := h.rowList_col hi hx
    rw [e2] at this
    exact ⟨by omega, by simp only at this; omega⟩
  refine ⟨⟨by omega, by omega, by omega, fun k hk => ?_, fun k hk => ?_⟩, b1, fun i j hi => ?_⟩
  · rw [b1]; exact (hall k (by omega)).1
  · rw [b1]; exact (hall k (by omega)).2
  · unfold Coo.entry
    rw [b2, range_eq_Ico, sum_Ico_list (concatRows A.n fun i => (A.rowList i).map fun e => (i, e))
      (fun e => if e.1 = i ∧ e.2.1 = j then e.2.2 else 0) _ 0 A.nnz (by omega)
      (fun q hq => by rw [Nat.zero_add, ← b6 q hq])]
    unfold concatRows
    rw [flatMap_range_sum, sum_eq_single i, Csr.entry_rowList, List.map_map]
    · congr 1; refine List.map_congr_left fun e _ => ?_; simp
    · intro b _ hb
      rw [List.map_map]
      refine List.sum_eq_zero ?_
      intro x hx
      simp only [List.mem_map, Function.comp] at hx
      obtain ⟨e, _, rfl⟩ := hx
      simp [hb]
    · intro hh; simp at hh; omega

/-! ### DNS -/

/-- **C08 (CSR → DNS)**, no duplicates. -/
theorem csr2dns_spec [AddCommMonoid R] (vjunk : ℕ → R) (A : Csr R) (h : A.WF) (hd : A.NoDup) :
    Ok (csr2dns vjunk A) fun B => B.WF ∧ B.n = A.n ∧ B.np = A.np ∧
      ∀ i j, i < A.n → j < A.np → B.entry i j = A.entry i j := by
  refine (csr2dns_spec' vjunk h).mono ?_
  rintro B ⟨b1, b2, b3, b4⟩
  refine ⟨⟨by rw [b1, b2, b3, Nat.mul_comm]⟩, b1, b2, fun i j hi hj => ?_⟩
  unfold Dns.entry
  rw [b1, b4 i j hi hj, lastVal_sum, Csr.entry_rowList]
  · unfold concatRows
    rw [flatMap_range_sum, sum_eq_single i, List.map_map]
    · congr 1; refine List.map_congr_left fun e _ => ?_; simp
    · intro b _ hb
      rw [List.map_map]
      refine List.sum_eq_zero ?_
      intro x hx
      simp only [List.mem_map, Function.comp] at hx
      obtain ⟨e, _, rfl⟩ := hx
      simp [hb]
    · intro hh; simp at hh; omega
  · unfold concatRows
    rw [List.map_flatMap, List.nodup_flatMap]
    refine ⟨fun ii hii => ?_, ?_⟩
    · rw [List.map_map]
      have h2 := (hd.rowList (i := ii) (by simpa using hii)).map (f := fun x => (ii, x)) (fun a b hab => by simpa using hab)
      rw [List.map_map] at h2
      exact h2
    · refine List.Pairwise.imp_of_mem ?_ (List.nodup_range (n := A.n))
      intro a b _ _ hab
      rw [Function.onFun, List.disjoint_left]
      intro x hx hy
      simp only [List.mem_map] at hx hy
      obtain ⟨_, ⟨_, _, rfl⟩, rfl⟩ := hx
      obtain ⟨_, ⟨_, _, rfl⟩, hy⟩ := hy
      exact hab (by simpa using (congrArg Prod.fst hy).symm)

/-- **C09 (DNS → CSR).** Also: nothing is stored twice, and no zero is stored. -/
theorem dns2csr_spec [AddCommMonoid R] [DecidableEq R] (junk : ℕ → ℕ → ℕ) (vjunk : ℕ → R) (A : Dns R) (h : A.WF) :
    Ok (dns2csr junk vjunk A) fun C => C.WF ∧ C.NoDup ∧ C.n = A.n ∧ C.np = A.np ∧
      (∀ k, k < C.nnz → C.value.get k ≠ 0) ∧
      ∀ i j, i < A.n → j < A.np → C.entry i j = A.entry i j := by
  refine (dns2csr_spec' junk vjunk h).mono ?_
  rintro C ⟨c1, c2, hR⟩
  have hmem : ∀ i e, e ∈ A.nzRow i → e.1 < A.np ∧ e.2 ≠ 0 := by
    intro i e he
    unfold Dns.nzRow at he
    obtain ⟨j, hj, he⟩ := concatRows_mem.1 he
    split at he
    · next hv => rw [List.mem_singleton] at he; subst he; exact ⟨hj, hv⟩
    · simp at he
  refine ⟨hR.wf fun i hi e he => by rw [c2]; exact (hmem i e he).1, hR.nodup fun i hi => ?_, c1, c2, fun k hk => ?_,
    fun i j hi hj => ?_⟩
  · unfold Dns.nzRow concatRows
    rw [List.map_flatMap, List.nodup_flatMap]
    refine ⟨fun j _ => by split <;> simp, ?_⟩
    refine List.Pairwise.imp_of_mem ?_ (List.nodup_range (n := A.np))
    intro a b _ _ hab
    rw [Function.onFun, List.disjoint_left]
    intro x hx hy
    split at hx
    · split at hy
      · simp only [List.map_cons, List.map_nil, List.mem_singleton] at hx hy; exact hab (hx ▸ hy)
      · simp at hy
    · simp at hx
  · rw [hR.nnz] at hk
    obtain ⟨i, hi, he⟩ := concatRows_mem.1 (List.getElem_mem hk)
    have := (hmem i _ he).2
    rw [← hR.fil k hk] at this
    exact this
  · rw [hR.entry (by omega)]
    unfold Dns.nzRow concatRows Dns.entry
    rw [flatMap_range_sum, sum_eq_single j]
    · by_cases hv : A.value.get (j * A.n + i) = 0 <;> simp [hv]
    · intro b _ hb
      split <;> simp [hb]
    · intro hh; simp at hh; omega

/-! ### ELL -/

/-- **C08 (CSR → ELL).** -/
theorem csr2ell_spec [AddCommMonoid R] (junk : ℕ → ℕ → ℕ) (vjunk : ℕ → R) (A : Csr R) (h : A.WF) (hsq : A.np = A.n) :
    Ok (csr2ell junk vjunk A) fun B => B.WF ∧ B.n = A.n ∧ ∀ i j, i < A.n → B.entry i j = A.entry i j := by
  refine (csr2ell_spec' junk vjunk h).mono ?_
  rintro B ⟨b1, b2, b3, b4, b5⟩
  refine ⟨⟨b2.ge, b3.ge, fun k hk i hi => ?_⟩, b1, fun i j hi => ?_⟩
  · have e := congrArg Prod.fst (b5 i k (by omega) hk)
    rw [b1] at hi ⊢
    simp only at e
    rw [e]
    by_cases hkl : k < (A.rowList i).length
    · rw [ellSlot_lt hkl, ← hsq]; exact h.rowList_col hi (List.getElem_mem hkl)
    · rw [ellSlot_ge (by omega)]; exact hi
  · rw [Csr.entry_rowList, ← ellSlot_sum (b4 i hi) j]
    unfold Ell.entry
    refine sum_congr rfl fun k hk => ?_
    rw [b1, ← b5 i k hi (by simpa using hk)]

/-- **C09 (ELL → CSR).** -/
theorem ell2csr_spec [AddCommMonoid R] [DecidableEq R] (junk : ℕ → ℕ → ℕ) (vjunk : ℕ → R) (A : Ell R) (h : A.WF) :
    Ok (ell2csr junk vjunk A) fun C => C.WF ∧ C.n = A.n ∧ C.np = A.n ∧
      ∀ i j, i < A.n → C.entry i j = A.entry i j := by
  refine (ell2csr_spec' junk vjunk h).mono ?_
  rintro C ⟨c1, c2, hC⟩
  have hw := hC.wf fun e he => by
    unfold Ell.nzList at he
    obtain ⟨j, hj, he⟩ := concatRows_mem.1 he
    obtain ⟨i, hi, he⟩ := concatRows_mem.1 he
    split at he
    · rw [List.mem_singleton] at he; subst he; exact h.idx j hj i hi
    · simp at he
  refine ⟨⟨by rw [c1]; exact hw.ptr, hw.isz, hw.vsz, by rw [c2]; exact hw.idx⟩, c1, c2, fun i j hi => ?_⟩
  have e : C.entry i j = (⟨A.n, A.n, C.nnz, C.ptr, C.index, C.value⟩ : Csc R).entry j i := rfl
  rw [e, hC.entry hi]
  unfold Ell.nzList concatRows Ell.entry
  rw [flatMap_range_sum]
  refine sum_congr rfl fun k _ => ?_
  rw [flatMap_range_sum, sum_eq_single i]
  · by_cases hv : A.value.get (k * A.n + i) = 0 <;> simp [hv]
  · intro b _ hb
    split <;> simp [hb]
  · intro hh; simp at hh; omega

/-! ### MSR -/

theorem lastDiag_none {i : ℕ} {d : R} {l : List (ℕ × R)} (h : ∀ e ∈ l, e.1 ≠ i) : lastDiag i d l = d := by
  induction l using List.reverseRecOn with
  | nil => rfl
  | append_singleton l e ih =>
    rw [lastDiag_snoc, if_neg (h e (by simp)), ih fun x hx => h x (by simp [hx])]

theorem lastDiag_sum [AddCommMonoid R] {i : ℕ} {d : R} {l : List (ℕ × R)} (hd : (l.map Prod.fst).Nodup)
    (h : ∃ e ∈ l, e.1 = i) : lastDiag i d l = (l.map fun e => if e.1 = i then e.2 else 0).sum := by
  induction l using List.reverseRecOn with
  | nil => simp at h
  | append_singleton l e ih =>
    rw [List.map_append, List.nodup_append] at hd
    rw [lastDiag_snoc, List.map_append, List.sum_append]
    simp only [List.map_cons, List.map_nil, List.sum_cons, List.sum_nil, add_zero]
    by_cases he : e.1 = i
    · rw [if_pos he, if_pos he, List.sum_eq_zero, zero_add]
      intro x hx
      obtain ⟨y, hy, rfl⟩ := List.mem_map.1 hx
      rw [if_neg]
      intro hyi
      exact hd.2.2 y.1 (List.mem_map.2 ⟨y, hy, rfl⟩) e.1 (by simp) (by rw [hyi, he])
    · rw [if_neg he, if_neg he, add_zero]
      refine ih hd.1 ?_
      obtain ⟨x, hx, hxi⟩ := h
      simp only [List.mem_append, List.mem_singleton] at hx
      rcases hx with hx | rfl
      · exact ⟨x, hx, hxi⟩
      · exact absurd hxi he

/-- row `i` stores its diagonal element -/
def Csr.HasDiag (A : Csr R) (i : ℕ) : Prop :=
  ∃ k, A.ptr.get i ≤ k ∧ k < A.ptr.get (i + 1) ∧ A.index.get k = i

theorem Csr.hasDiag_iff (A : Csr R) (i : ℕ) : A.HasDiag i ↔ ∃ e ∈ A.rowList i, e.1 = i := by
  simp only [Csr.rowList, List.mem_map, List.mem_range, Csr.HasDiag]
  constructor
  · rintro ⟨k, h1, h2, h3⟩
    exact ⟨_, ⟨k - A.ptr.get i, by omega, rfl⟩, by simpa [show A.ptr.get i + (k - A.ptr.get i) = k by omega] using h3⟩
  · rintro ⟨_, ⟨q, hq, rfl⟩, hh⟩
    exact ⟨A.ptr.get i + q, by omega, by omega, hh⟩

/-- **C08 (CSR → MSR).** Off-diagonal entries always survive, diagonal entries survive in the rows that
store a diagonal element; a row that stores none gets whatever the memory allocator left in the new
array (`vjunk`) as its diagonal entry. -/
theorem csr2msr_spec [AddCommMonoid R] (junk : ℕ → ℕ → ℕ) (vjunk : ℕ → R) (A : Csr R) (h : A.WF) (hd : A.NoDup)
    (hsq : A.np = A.n) :
    Ok (csr2msr junk vjunk A) fun r => r.1.WF ∧ r.1.n = A.n ∧ r.1.nnz + A.n = A.nnz + r.2 ∧
      (∀ i j, i < A.n → (i ≠ j ∨ A.HasDiag i) → r.1.entry i j = A.entry i j) ∧
      ∀ i, i < A.n → ¬ A.HasDiag i → r.1.entry i i = vjunk i := by
  refine (csr2msr_spec' junk vjunk h hd).mono ?_
  rintro ⟨B, ndz⟩ ⟨b1, b2, b3, hM⟩
  simp only at b1 b2 b3 hM
  have hp : ∀ q, q ≤ A.n → B.index.get q = A.n + 1 + (concatRows q A.offRow).length := hM.ptr
  have hf : Filled (fun q => (B.index.get (A.n + 1 + q), B.value.get (A.n + 1 + q))) (concatRows A.n A.offRow) := hM.fil
  have hval : ∀ i, i < A.n → B.value.get i = lastDiag i (vjunk i) (A.rowList i) := fun i hi => by
    have := hM.dia i hi
    rw [if_pos hi] at this
    exact this
  have hsum : ∀ i j, i < A.n → (∑ k ∈ Ico (B.index.get i) (B.index.get (i + 1)),
      if B.index.get k = j then B.value.get k else 0) = ((A.offRow i).map fun e => if e.1 = j then e.2 else 0).sum := by
    intro i j hi
    refine sum_Ico_list (A.offRow i) (fun e => if e.1 = j then e.2 else 0) _ _ _ ?_ fun q hq => ?_
    · rw [hp i (by omega), hp (i + 1) (by omega), concatRows_succ, List.length_append]; omega
    · have := hf.row hi hq
      rw [hp i (by omega), Nat.add_assoc, ← this]
  have hoff : ∀ i j, i < A.n → i ≠ j → ((A.offRow i).map fun e => if e.1 = j then e.2 else 0).sum = A.entry i j := by
    intro i j _ hij
    rw [Csr.entry_rowList]
    unfold Csr.offRow
    generalize A.rowList i = l
    induction l with
    | nil => rfl
    | cons e l ih =>
      by_cases he : e.1 = i
      · rw [List.filter_cons_of_neg (by simpa using he), ih]
        simp [he, hij]
      · rw [List.filter_cons_of_pos (by simpa using he), List.map_cons, List.map_cons, List.sum_cons, List.sum_cons, ih]
  have hoff0 : ∀ i, ((A.offRow i).map fun e => if e.1 = i then e.2 else 0).sum = 0 := by
    intro i
    refine List.sum_eq_zero fun x hx => ?_
    obtain ⟨y, hy, rfl⟩ := List.mem_map.1 hx
    unfold Csr.offRow at hy
    rw [List.mem_filter] at hy
    rw [if_neg (by simpa using hy.2)]
  refine ⟨⟨?_, ?_, ?_, ?_, ?_, ?_⟩, b1, by simp only; omega, ?_, ?_⟩
  · rw [b1]; exact hM.isz.ge
  · rw [b1]; exact hM.vsz.ge
  · rw [b1, hp 0 (by omega)]; rfl
  · intro i hi
    rw [b1] at hi
    simp only
    rw [hp i (by omega), hp (i + 1) (by omega), concatRows_succ, List.length_append]; omega
  · rw [b1]; simp only; rw [hp A.n le_rfl, b2]
  · intro k hk1 hk2
    rw [b1] at hk1 hk2 ⊢
    simp only at hk2 ⊢
    rw [b2] at hk2
    have e := congrArg Prod.fst (hf (k - (A.n + 1)) (by omega))
    simp only [show A.n + 1 + (k - (A.n + 1)) = k by omega] at e
    rw [e]
    obtain ⟨i, hi, he⟩ := concatRows_mem.1 (List.getElem_mem
      (l := concatRows A.n A.offRow) (n := k - (A.n + 1)) (by omega))
    have := h.rowList_col hi (List.mem_of_mem_filter he)
    omega
  · intro i j hi hor
    unfold Msr.entry
    simp only
    rw [hsum i j hi]
    by_cases hij : i = j
    · subst hij
      rw [if_pos rfl, hoff0, add_zero, hval i hi, lastDiag_sum (hd.rowList hi), Csr.entry_rowList]
      rcases hor with hh | hh
      · exact absurd rfl hh
      · exact (Csr.hasDiag_iff A i).1 hh
    · rw [if_neg hij, zero_add, hoff i j hi hij]
  · intro i hi hno
    unfold Msr.entry
    simp only
    rw [hsum i i hi, if_pos trivial, hoff0, add_zero, hval i hi, lastDiag_none]
    intro e he hei
    exact hno ((Csr.hasDiag_iff A i).2 ⟨e, he, hei⟩)

theorem Msr.nzRow_len [Zero R] [DecidableEq R] {A : Msr R} (h : A.WF) :
    (concatRows A.n A.nzRow).length = A.nnz + ((List.range A.n).filter fun i => A.value.get i ≠ 0).length := by
  have key : ∀ m, m ≤ A.n → (concatRows m A.nzRow).length + (A.n + 1) =
      A.index.get m + ((List.range m).filter fun i => A.value.get i ≠ 0).length := by
    intro m
    induction m with
    | zero => intro _; simp [h.zero]
    | succ m ih =>
      intro hm
      have := ih (by omega)
      have hmono := h.mono m (by omega)
      rw [concatRows_succ, List.length_append, List.range_succ, List.filter_append, List.length_append]
      unfold Msr.nzRow at this ⊢
      rw [List.length_append, emits_length]
      by_cases hv : A.value.get m = 0
      · simp [hv] at this ⊢; omega
      · simp [hv] at this ⊢; omega
  have := key A.n le_rfl
  rw [h.last] at this
  omega

/-- **C09 (MSR → CSR).** `nnz` is the element count recorded in the matrix; it has to cover the
off-diagonal elements and the nonzero diagonal elements.  The new matrix keeps `nnz` as its count even
if zero diagonal elements were dropped; its arrays are described by `ptr`. -/
theorem msr2csr_spec [AddCommMonoid R] [DecidableEq R] (junk : ℕ → ℕ → ℕ) (vjunk : ℕ → R) (nnz : ℕ) (A : Msr R) (h : A.WF)
    (hroom : A.nnz + ((List.range A.n).filter fun i => A.value.get i ≠ 0).length ≤ nnz) :
    Ok (msr2csr junk vjunk nnz A) fun C => C.n = A.n ∧ C.np = A.n ∧ C.nnz = nnz ∧ C.ptr.get A.n ≤ nnz ∧
      ({ C with nnz := C.ptr.get A.n } : Csr R).WF ∧
      ((∀ i, i < A.n → A.value.get i ≠ 0) → nnz = A.nnz + A.n → C.WF) ∧
      ∀ i j, i < A.n → C.entry i j = A.entry i j := by
  refine (msr2csr_spec' junk vjunk nnz h (by rw [Msr.nzRow_len h]; exact hroom)).mono ?_
  rintro C ⟨c1, c2, c3, c4, hR⟩
  have hw : ({ C with nnz := C.ptr.get A.n } : Csr R).WF := by
    refine hR.wf fun i hi e he => ?_
    simp only at hi
    rw [c1] at hi
    show e.1 < C.np
    rw [c2]
    unfold Msr.nzRow at he
    rw [List.mem_append] at he
    rcases he with he | he
    · split at he
      · rw [List.mem_singleton] at he; subst he; exact hi
      · simp at he
    · obtain ⟨k, k1, k2, k3⟩ := emits_mem.1 he
      rw [List.mem_singleton] at k3; subst k3
      have hlow : ∀ m, m ≤ A.n → A.n + 1 ≤ A.index.get m := by
        intro m
        induction m with
        | zero => intro _; rw [h.zero]
        | succ m ih => intro hm; exact (ih (by omega)).trans (h.mono m (by omega))
      have hup : ∀ k, k ≤ A.n → A.index.get (A.n - k) ≤ A.n + 1 + A.nnz := by
        intro k
        induction k with
        | zero => intro _; rw [Nat.sub_zero, h.last]
        | succ k ih =>
          intro hk
          have := h.mono (A.n - (k + 1)) (by omega)
          rw [show A.n - (k + 1) + 1 = A.n - k by omega] at this
          exact this.trans (ih (by omega))
      have h1 := hlow i (by omega)
      have h2 := hup (A.n - (i + 1)) (by omega)
      rw [show A.n - (A.n - (i + 1)) = i + 1 by omega] at h2
      exact h.idx k (by omega) (by omega)
  refine ⟨c1, c2, c3, c4, hw, fun hall hn => ?_, fun i j hi => ?_⟩
  · have hlen := Msr.nzRow_len h
    have hfa : ((List.range A.n).filter fun i => A.value.get i ≠ 0) = List.range A.n := by
      rw [List.filter_eq_self]; intro i hi; simpa using hall i (by simpa using hi)
    rw [hfa, List.length_range] at hlen
    have hpn := hR.ptr A.n (by rw [show (({ C with nnz := C.ptr.get A.n } : Csr R)).n = C.n from rfl, c1])
    simp only at hpn
    have e : C.nnz = C.ptr.get A.n := by omega
    have : C = { C with nnz := C.ptr.get A.n } := by rw [← e]
    rw [this]; exact hw
  · have := hR.entry (i := i) (by show i < C.n; omega) j
    have e : ({ C with nnz := C.ptr.get A.n } : Csr R).entry i j = C.entry i j := rfl
    rw [e] at this
    rw [this]
    unfold Msr.nzRow Msr.entry
    rw [List.map_append, List.sum_append, emits_sum]
    congr 1
    · by_cases hv : A.value.get i = 0
      · simp [hv]
      · simp [hv]
    · simp

/-! ### not vacuous -/

def exJ : ℕ → ℕ → ℕ := fun _ _ => 7
def exV : ℕ → ℤ := fun _ => 7

example : (csr2csc exJ exV exCsr5).map (fun B => (B.ptr.toList, B.index.toList, B.value.toList)) =
    some ([0, 2, 3, 4, 6, 8], [0, 1, 1, 3, 0, 3, 3, 4], [1, 4, 3, 6, 2, 7, 5, 8]) := by decide
example : (do let B ← csr2csc exJ exV exCsr5; let C ← csc2csr exJ exV B
              pure (C.ptr.toList, C.index.toList, C.value.toList)) =
    some ([0, 2, 4, 4, 7, 8], [0, 3, 0, 1, 2, 3, 4, 4], [1, 2, 4, 3, 6, 7, 5, 8]) := by decide
example : (csr2coo exJ exV exCsr5).map (fun B => (B.row.toList, B.col.toList)) =
    some ([0, 0, 1, 1, 3, 3, 3, 4], [0, 3, 1, 0, 4, 2, 3, 4]) := by decide
example : (do let B ← csr2dns exV exCsr5; let C ← dns2csr exJ exV B
              pure (C.ptr.toList, C.index.toList, C.value.toList)) =
    some ([0, 2, 4, 4, 7, 8], [0, 3, 0, 1, 2, 3, 4, 4], [1, 2, 4, 3, 6, 7, 5, 8]) := by decide
example : (do let B ← csr2ell exJ exV exCsr5; let C ← ell2csr exJ exV B
              pure (B.maxnzr, C.ptr.toList, C.index.toList, C.value.toList)) =
    some (3, [0, 2, 4, 4, 7, 8], [0, 3, 1, 0, 4, 2, 3, 4], [1, 2, 3, 4, 5, 6, 7, 8]) := by decide

/-- a matrix storing its whole diagonal -/
def exCsrD : Csr ℤ :=
  ⟨3, 3, 6, Arr.ofList [0, 2, 4, 6], Arr.ofList [0, 2, 0, 1, 2, 1], Arr.ofList [1, 2, 3, 4, 5, 6]⟩
theorem exCsrD_wf : exCsrD.WF := ⟨⟨by decide, by decide, by decide, by decide⟩, by decide, by decide, by decide⟩
theorem exCsrD_nodup : exCsrD.NoDup := Csr.nodup_of (by decide)
example : ∀ i, i < exCsrD.n → exCsrD.HasDiag i := by
  intro i hi
  have h3 : i < 3 := hi
  match i, h3 with
  | 0, _ => exact ⟨0, by decide, by decide, by decide⟩
  | 1, _ => exact ⟨3, by decide, by decide, by decide⟩
  | 2, _ => exact ⟨4, by decide, by decide, by decide⟩
example : (do let (B, ndz) ← csr2msr exJ exV exCsrD; let C ← msr2csr exJ exV exCsrD.nnz B
              pure ((ndz, B.index.toList, B.value.toList), (C.ptr.toList, C.index.toList, C.value.toList))) =
    some ((0, [4, 5, 6, 7, 2, 0, 1], [1, 4, 5, 7, 2, 3, 6]), ([0, 2, 4, 6], [0, 2, 1, 0, 2, 1], [1, 2, 4, 3, 5, 6])) := by decide

/-- **C08, negative.** Two elements for one position: CSR → DNS keeps the last, the CSR matrix means
their sum. -/
theorem csr2dns_duplicates :
    let A : Csr ℤ := ⟨1, 1, 2, Arr.ofList [0, 2], Arr.ofList [0, 0], Arr.ofList [5, 6]⟩
    A.WF ∧ A.entry 0 0 = 11 ∧ ∃ B, csr2dns exV A = some B ∧ B.entry 0 0 = 6 :=
  ⟨⟨⟨by decide, by decide, by decide, by decide⟩, by decide, by decide, by decide⟩, by decide, _, rfl, by decide⟩

/-- **C08/C09, negative.** CSR → MSR → CSR of a well-formed matrix without stored diagonal: the first
conversion leaves the diagonal uninitialised, the second counts it and writes outside its arrays, if the
uninitialised memory is not zero.  (lis_matrix_msr.c:177-184, :1075-1090, :1131-1140.) -/
theorem msr_roundtrip_oob :
    let A : Csr ℤ := ⟨2, 2, 1, Arr.ofList [0, 1, 1], Arr.ofList [1], Arr.ofList [5]⟩
    A.WF ∧ A.NoDup ∧ (∃ B ndz, csr2msr exJ exV A = some (B, ndz) ∧ B.entry 0 0 = 7 ∧ A.entry 0 0 = 0 ∧
      msr2csr exJ exV A.nnz B = none) :=
  ⟨⟨⟨by decide, by decide, by decide, by decide⟩, by decide, by decide, by decide⟩, Csr.nodup_of (by decide),
    _, _, rfl, by decide, by decide, by decide⟩

end Lis
