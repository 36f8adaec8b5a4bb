import Verif.Model.PreconIs
import Verif.Lemmas.CsrOps
import Verif.Props.CsrOps
import Verif.Props.Blocks
import Mathlib.Data.List.Nodup
import Mathlib.Data.List.Sublists
import Mathlib.Data.Finset.Card

/-! I+S preconditioner: distinct columns in order of first appearance, and the two passes over them -/

namespace Lis
open Finset
variable {R : Type}

/-! ### distinct columns -/

def insK (K : List ℕ) (c : ℕ) : List ℕ := if c ∈ K then K else K ++ [c]

/-- the distinct elements in order of first appearance -/
def keysOf (l : List ℕ) : List ℕ := l.foldl insK []

@[simp] theorem keysOf_nil : keysOf [] = [] := rfl
theorem keysOf_snoc (l : List ℕ) (c : ℕ) : keysOf (l ++ [c]) = insK (keysOf l) c := by simp [keysOf]

theorem mem_keysOf {l : List ℕ} {c : ℕ} : c ∈ keysOf l ↔ c ∈ l := by
  induction l using List.reverseRecOn with
  | nil => simp
  | append_singleton l x ih =>
    rw [keysOf_snoc, insK]
    split
    · next h =>
      rw [ih, List.mem_append, List.mem_singleton]
      constructor
      · exact .inl
      · rintro (h' | rfl)
        · exact h'
        · exact ih.1 h
    · rw [List.mem_append, List.mem_append, ih]

theorem keysOf_new {l : List ℕ} {c : ℕ} (h : c ∉ l) : keysOf (l ++ [c]) = keysOf l ++ [c] := by
  rw [keysOf_snoc, insK, if_neg (fun hh => h (mem_keysOf.1 hh))]

theorem keysOf_old {l : List ℕ} {c : ℕ} (h : c ∈ l) : keysOf (l ++ [c]) = keysOf l := by
  rw [keysOf_snoc, insK, if_pos (mem_keysOf.2 h)]

theorem nodup_keysOf (l : List ℕ) : (keysOf l).Nodup := by
  induction l using List.reverseRecOn with
  | nil => simp
  | append_singleton l x ih =>
    by_cases h : x ∈ l
    · rw [keysOf_old h]; exact ih
    · rw [keysOf_new h]
      refine List.Nodup.append ih (by simp) ?_
      intro a ha hb
      rw [List.mem_singleton] at hb
      subst hb
      exact h (mem_keysOf.1 ha)

theorem keysOf_filter (p : ℕ → Bool) (l : List ℕ) : (keysOf l).filter p = keysOf (l.filter p) := by
  induction l using List.reverseRecOn with
  | nil => rfl
  | append_singleton l x ih =>
    rw [List.filter_append]
    by_cases h : x ∈ l
    · rw [keysOf_old h, ih]
      by_cases hp : p x
      · rw [show [x].filter p = [x] by simp [hp], keysOf_old (by simp [h, hp])]
      · rw [show [x].filter p = [] by simp [hp], List.append_nil]
    · rw [keysOf_new h, List.filter_append, ih]
      by_cases hp : p x
      · rw [show [x].filter p = [x] by simp [hp], keysOf_new (by simp [h])]
      · rw [show [x].filter p = [] by simp [hp], List.append_nil, List.append_nil]

theorem keysOf_prefix {l l' : List ℕ} (h : l <+: l') : keysOf l <+: keysOf l' := by
  obtain ⟨t, rfl⟩ := h
  induction t using List.reverseRecOn with
  | nil => simp
  | append_singleton t x ih =>
    rw [← List.append_assoc]
    by_cases h : x ∈ l ++ t
    · rw [keysOf_old h]; exact ih
    · rw [keysOf_new h]; exact ih.trans (List.prefix_append _ _)

theorem keysOf_length_le {l : List ℕ} {n : ℕ} (h : ∀ c ∈ l, c < n) : (keysOf l).length ≤ n := by
  have h1 : (keysOf l).toFinset ⊆ range n := by
    intro c hc
    rw [List.mem_toFinset, mem_keysOf] at hc
    exact mem_range.2 (h c hc)
  have h2 := Finset.card_le_card h1
  rwa [List.toFinset_card_of_nodup (nodup_keysOf l), card_range] at h2

/-- sum of the values filed under column `j` -/
def ksum [AddCommMonoid R] (S : List (ℕ × R)) (j : ℕ) : R := (S.map fun e => if e.1 = j then e.2 else 0).sum

theorem ksum_append [AddCommMonoid R] (S T : List (ℕ × R)) (j : ℕ) : ksum (S ++ T) j = ksum S j + ksum T j := by
  simp [ksum]

theorem ksum_snoc [AddCommMonoid R] (S : List (ℕ × R)) (c : ℕ) (v : R) (j : ℕ) :
    ksum (S ++ [(c, v)]) j = ksum S j + if c = j then v else 0 := by
  simp [ksum]

theorem ksum_absent [AddCommMonoid R] {S : List (ℕ × R)} {j : ℕ} (h : j ∉ S.map Prod.fst) : ksum S j = 0 := by
  induction S with
  | nil => rfl
  | cons e S ih =>
    simp only [List.map_cons, List.mem_cons, not_or] at h
    have := ih h.2
    unfold ksum at this ⊢
    rw [List.map_cons, List.sum_cons, this, if_neg fun hh => h.1 hh.symm, add_zero]

/-- the sum over distinct keys, each carrying its total -/
theorem ksum_keys [AddCommMonoid R] (K : List ℕ) (hK : K.Nodup) (f : ℕ → R) (j : ℕ) :
    ksum (K.map fun c => (c, f c)) j = if j ∈ K then f j else 0 := by
  induction K with
  | nil => simp [ksum]
  | cons c K ih =>
    rw [List.nodup_cons] at hK
    have := ih hK.2
    unfold ksum at this ⊢
    rw [List.map_cons, List.map_cons, List.sum_cons, this]
    by_cases h : c = j
    · subst h
      simp [hK.1]
    · simp only [h, if_false, zero_add, List.mem_cons]
      by_cases hj : j ∈ K
      · simp [hj]
      · simp [hj, show ¬ j = c from fun hh => h hh.symm]

/-! ### row loops -/

theorem rowVals_spec {σ : Type} {B : Csr R} (hB : B.WF) {i : ℕ} (hi : i < B.n) {s : σ} {f : ℕ → R → σ → Option σ}
    (I : List (ℕ × R) → σ → Prop) (h0 : I [] s)
    (hs : ∀ l e s, l ++ [e] <+: B.rowList i → I l s → Ok (f e.1 e.2 s) (I (l ++ [e]))) :
    Ok (rowVals B i s f) (I (B.rowList i)) := by
  have hps := hB.ptr.size
  have his := hB.isz
  have hvs := hB.vsz
  unfold rowVals
  simp only [Ok_bind, Ok_rd]
  refine ⟨by omega, by omega, ?_⟩
  refine Ok_takeLoop (l := B.rowList i) I (hB.row_end hi) h0 ?_ fun _ h => h
  intro q hq s hI
  have hk : B.ptr.get i + q < B.nnz := hB.ptr.lt_nnz hi (by rw [hB.row_end hi]; omega)
  simp only [Ok_bind, Ok_rd]
  refine ⟨by omega, by omega, ?_⟩
  have := hs ((B.rowList i).take q) (B.rowList i)[q] s
    (by rw [List.take_append_getElem]; exact List.take_prefix _ _) hI
  rw [Csr.rowList_get] at this ⊢
  exact this

theorem rowCols_spec {σ : Type} {B : Csr R} (hB : B.WF) {i : ℕ} (hi : i < B.n) {s : σ} {f : ℕ → σ → Option σ}
    (I : List ℕ → σ → Prop) (h0 : I [] s)
    (hs : ∀ l c s, l ++ [c] <+: (B.rowList i).map Prod.fst → I l s → Ok (f c s) (I (l ++ [c]))) :
    Ok (rowCols B i s f) (I ((B.rowList i).map Prod.fst)) := by
  have hps := hB.ptr.size
  have his := hB.isz
  unfold rowCols
  simp only [Ok_bind, Ok_rd]
  refine ⟨by omega, by omega, ?_⟩
  refine Ok_takeLoop (l := B.rowList i) (fun l s => I (l.map Prod.fst) s) (hB.row_end hi) h0 ?_ fun _ h => h
  intro q hq s hI
  have hk : B.ptr.get i + q < B.nnz := hB.ptr.lt_nnz hi (by rw [hB.row_end hi]; omega)
  simp only [Ok_bind, Ok_rd]
  refine ⟨by omega, ?_⟩
  have := hs (((B.rowList i).take q).map Prod.fst) ((B.rowList i)[q]).1 s ?_ hI
  · rw [Csr.rowList_get] at this ⊢
    simpa using this
  · have h1 : ((B.rowList i).take q ++ [(B.rowList i)[q]]) <+: B.rowList i := by
      rw [List.take_append_getElem]; exact List.take_prefix _ _
    have := h1.map Prod.fst
    rw [List.map_append] at this
    exact this

/-! ### counting pass -/

structure CntInv (n i : ℕ) (S : List ℕ) (s : IsCnt) : Prop where
  isz : s.iw.size = n
  isz2 : s.iw2.size = n
  k : s.k = (keysOf S).length
  fil : Filled s.iw2.get (keysOf S)
  iw : ∀ c, c < n → (s.iw.get c = 0 ↔ c ∉ S)
  nl : s.nnzl = ((keysOf S).filter (· < i)).length
  nu : s.nnzu = ((keysOf S).filter (i < ·)).length
  bnd : ∀ c ∈ S, c < n

theorem isMark_spec {n i : ℕ} {S : List ℕ} {s : IsCnt} (h : CntInv n i S s) {c : ℕ} (hc : c < n) (hn : c ∉ S)
    {a b : ℕ} (ha : a = if c < i then 1 else 0) (hb : b = if i < c then 1 else 0) :
    Ok (isMark c s) fun s' => CntInv n i (S ++ [c]) { s' with nnzl := s'.nnzl + a, nnzu := s'.nnzu + b } := by
  have hlen : (keysOf (S ++ [c])).length ≤ n := keysOf_length_le (by
    intro x hx
    rw [List.mem_append, List.mem_singleton] at hx
    rcases hx with hx | rfl
    · exact h.bnd x hx
    · exact hc)
  have hk := keysOf_new hn
  rw [hk, List.length_append, List.length_singleton] at hlen
  have h1 := h.isz
  have h2 := h.isz2
  have h3 := h.k
  unfold isMark
  simp only [Ok_bind, Ok_wr]
  rw [Ok_pure]
  refine ⟨by omega, by omega, ⟨h1, h2, ?_, ?_, ?_, ?_, ?_, ?_⟩⟩
  · rw [hk]; simp [h3]
  · rw [hk]
    refine h.fil.snoc fun q => ?_
    simp only [Arr.set_get, h3]
  · intro c' hc'
    simp only [Arr.set_get]
    by_cases e : c' = c
    · subst e; simp
    · rw [if_neg e, h.iw c' hc']; simp [e]
  · rw [hk, List.filter_append, List.length_append, ha]
    have := h.nl
    by_cases hci : c < i <;> simp [hci, this]
  · rw [hk, List.filter_append, List.length_append, hb]
    have := h.nu
    by_cases hci : i < c <;> simp [hci, this]
  · intro x hx
    rw [List.mem_append, List.mem_singleton] at hx
    rcases hx with hx | rfl
    · exact h.bnd x hx
    · exact hc

theorem isSee_spec {n i : ℕ} {S : List ℕ} {s : IsCnt} (h : CntInv n i S s) {c : ℕ} (hc : c < n)
    {side : ℕ × ℕ} (ha : side.1 = if c < i then 1 else 0) (hb : side.2 = if i < c then 1 else 0) :
    Ok (isSee c side s) (CntInv n i (S ++ [c])) := by
  have h1 := h.isz
  unfold isSee
  simp only [Ok_bind, Ok_rd]
  refine ⟨by omega, ?_⟩
  split
  · next h0 =>
    simp only [Ok_bind, Ok_pure]
    exact isMark_spec h hc ((h.iw c hc).1 h0) ha hb
  · next h0 =>
    have hm : c ∈ S := by
      by_contra hh
      exact h0 ((h.iw c hc).2 hh)
    rw [Ok_pure]
    refine ⟨h.isz, h.isz2, by rw [keysOf_old hm]; exact h.k, by rw [keysOf_old hm]; exact h.fil, ?_,
      by rw [keysOf_old hm]; exact h.nl, by rw [keysOf_old hm]; exact h.nu, ?_⟩
    · intro c' hc'
      rw [h.iw c' hc']
      by_cases e : c' = c
      · subst e; simp [hm]
      · simp [e]
    · intro x hx
      rw [List.mem_append, List.mem_singleton] at hx
      rcases hx with hx | rfl
      · exact h.bnd x hx
      · exact hc


/-! ### the sequence of elements a row is built from -/

/-- `I*A` then `S*A`: the columns in the order the code meets them -/
def isCols (A : SplitCsr R) (m i : ℕ) : List ℕ :=
  (A.L.rowList i).map Prod.fst ++ (A.U.rowList i).map Prod.fst ++ ((A.U.rowList i).take m).flatMap fun e =>
    (A.L.rowList e.1).map Prod.fst ++ [e.1] ++ (A.U.rowList e.1).map Prod.fst

theorem isRowEnd_spec {U : Csr R} (hU : U.WF) (m : ℕ) {i : ℕ} (hi : i < U.n) :
    Ok (isRowEnd U m i) fun e => e = U.ptr.get i + ((U.rowList i).take m).length := by
  have hps := hU.ptr.size
  have := hU.row_end hi
  unfold isRowEnd
  simp only [Ok_bind, Ok_rd]
  rw [Ok_pure]
  refine ⟨by omega, by omega, ?_⟩
  rw [List.length_take]
  split <;> omega

/-- split matrix the I+S code can work on: square, parts strictly triangular, no position stored twice -/
structure SplitCsr.Ready (A : SplitCsr R) : Prop where
  wf : A.WF
  strict : A.Strict
  sq : A.np = A.n
  ld : A.L.NoDup
  ud : A.U.NoDup

theorem SplitCsr.Ready.low {A : SplitCsr R} (h : A.Ready) {i : ℕ} (hi : i < A.n) {c : ℕ}
    (hc : c ∈ (A.L.rowList i).map Prod.fst) : c < i := by
  rw [List.mem_map] at hc
  obtain ⟨e, he, rfl⟩ := hc
  obtain ⟨k, h1, h2, rfl⟩ := Csr.mem_rowList.1 he
  exact h.strict.low i hi k h1 h2

theorem SplitCsr.Ready.up {A : SplitCsr R} (h : A.Ready) {i : ℕ} (hi : i < A.n) {c : ℕ}
    (hc : c ∈ (A.U.rowList i).map Prod.fst) : i < c ∧ c < A.n := by
  rw [List.mem_map] at hc
  obtain ⟨e, he, rfl⟩ := hc
  have h1 := h.wf.uwf.rowList_col (by rw [h.wf.un]; exact hi) he
  rw [h.wf.unp, h.sq] at h1
  obtain ⟨k, h2, h3, rfl⟩ := Csr.mem_rowList.1 he
  exact ⟨h.strict.up i hi k h2 h3, h1⟩

theorem nodup_snoc_prefix {l m : List ℕ} {c : ℕ} (h : l ++ [c] <+: m) (hm : m.Nodup) : c ∉ l := by
  have h1 : (l ++ [c]).Nodup := hm.sublist h.sublist
  rw [List.nodup_append] at h1
  intro hc
  exact h1.2.2 c hc c (by simp) rfl

theorem isCountRow_spec {A : SplitCsr R} (h : A.Ready) (m : ℕ) {i : ℕ} (hi : i < A.n) {iw iw2 : Arr ℕ}
    (h1 : iw.size = A.n) (h2 : iw2.size = A.n) (h0 : ∀ c, c < A.n → iw.get c = 0) :
    Ok (isCountRow A m i iw iw2) fun r =>
      r.1.1 = (keysOf ((isCols A m i).filter (· < i))).length ∧
      r.1.2 = (keysOf ((isCols A m i).filter (i < ·))).length ∧
      r.2.1.size = A.n ∧ r.2.2.size = A.n ∧ ∀ c, c < A.n → r.2.1.get c = 0 := by
  have hLn := h.wf.ln
  have hUn := h.wf.un
  have hL := h.wf.lwf
  have hU := h.wf.uwf
  have hps := hU.ptr.size
  unfold isCountRow
  simp only [Ok_bind]
  -- L row
  refine (rowCols_spec hL (i := i) (by omega) (fun l s => CntInv A.n i l s) ?_ ?_).mono ?_
  · refine ⟨h1, h2, rfl, Filled.nil _, fun c hc => ?_, rfl, rfl, by simp⟩
    simp [h0 c hc]
  · intro l c s hp hI
    have hcm : c ∈ (A.L.rowList i).map Prod.fst := hp.subset (by simp)
    have hci := h.low hi hcm
    simp only [Ok_bind, Ok_pure]
    refine (isMark_spec hI (by omega) (nodup_snoc_prefix hp (h.ld.rowList (by omega))) (a := 1) (b := 0)
      (by simp [hci]) (by simp; omega)).mono fun s' hs' => ?_
    exact hs'
  intro s1 hs1
  refine (rowCols_spec hU (i := i) (by omega)
    (fun l s => CntInv A.n i ((A.L.rowList i).map Prod.fst ++ l) s) ?_ ?_).mono ?_
  · simpa using hs1
  · intro l c s hp hI
    have hcm : c ∈ (A.U.rowList i).map Prod.fst := hp.subset (by simp)
    have hci := h.up hi hcm
    simp only [Ok_bind, Ok_pure]
    rw [← List.append_assoc]
    refine (isMark_spec hI (by omega) ?_ (a := 0) (b := 1)
      (by simp; omega) (by simp [hci.1])).mono fun s' hs' => ?_
    · rw [List.mem_append, not_or]
      refine ⟨fun hh => ?_, nodup_snoc_prefix hp (h.ud.rowList (by omega))⟩
      have := h.low hi hh
      omega
    · exact hs'
  intro s2 hs2
  simp only [Ok_rd]
  refine ⟨by omega, (isRowEnd_spec hU m (by omega)).mono ?_⟩
  rintro e rfl
  refine Ok_takeLoop (l := (A.U.rowList i).take m) (fun l s => CntInv A.n i ((A.L.rowList i).map Prod.fst ++
    (A.U.rowList i).map Prod.fst ++ l.flatMap fun e =>
    (A.L.rowList e.1).map Prod.fst ++ [e.1] ++ (A.U.rowList e.1).map Prod.fst) s) rfl (by simpa using hs2) ?_ ?_
  · intro q hq s hI
    rw [List.length_take] at hq
    have hk : A.U.ptr.get i + q < A.U.nnz := hU.ptr.lt_nnz (i := i) (by omega) (by rw [hU.row_end (by omega)]; omega)
    have his := hU.isz
    simp only [Ok_bind, Ok_rd]
    refine ⟨by omega, ?_⟩
    simp only [List.getElem_take]
    have hcm : ((A.U.rowList i)[q]).1 ∈ (A.U.rowList i).map Prod.fst :=
      List.mem_map_of_mem (List.getElem_mem _)
    rw [Csr.rowList_get] at hcm ⊢
    simp only at hcm
    obtain ⟨jj, hjj⟩ : ∃ jj, jj = A.U.index.get (A.U.ptr.get i + q) := ⟨_, rfl⟩
    rw [← hjj] at hcm ⊢
    have hj := h.up hi hcm
    rw [List.flatMap_append]
    simp only [List.flatMap_cons, List.flatMap_nil, List.append_nil]
    obtain ⟨S, hS⟩ : ∃ S, S = (A.L.rowList i).map Prod.fst ++ (A.U.rowList i).map Prod.fst ++
      (((A.U.rowList i).take m).take q).flatMap fun e =>
      (A.L.rowList e.1).map Prod.fst ++ [e.1] ++ (A.U.rowList e.1).map Prod.fst := ⟨_, rfl⟩
    rw [← hS] at hI
    rw [← List.append_assoc, ← hS]
    refine (rowCols_spec hL (i := jj) (by omega) (fun l s => CntInv A.n i (S ++ l) s) (by simpa using hI) ?_).mono ?_
    · intro l c s hp hI
      have hcm : c ∈ (A.L.rowList jj).map Prod.fst := hp.subset (by simp)
      have hci := h.low hj.2 hcm
      rw [← List.append_assoc]
      refine isSee_spec hI (by omega) ?_ ?_
      · by_cases e : c < i
        · simp [e]
        · by_cases e' : c > i <;> simp [e, e']
      · by_cases e : c < i
        · simp [e]; omega
        · by_cases e' : c > i <;> simp [e, e']
    intro s3 hs3
    refine (isSee_spec hs3 hj.2 (by simp; omega) (by simp; omega)).mono ?_
    intro s4 hs4
    refine (rowCols_spec hU (i := jj) (by omega) (fun l s => CntInv A.n i (S ++ (A.L.rowList jj).map Prod.fst ++ [jj] ++ l) s)
      (by simpa using hs4) ?_).mono ?_
    · intro l c s hp hI
      have hcm : c ∈ (A.U.rowList jj).map Prod.fst := hp.subset (by simp)
      have hci := h.up hj.2 hcm
      rw [← List.append_assoc]
      exact isSee_spec hI (by omega) (by simp; omega) (by simp; omega)
    · intro s5 hs5
      simpa [List.append_assoc] using hs5
  intro s6 hs6
  rw [show (A.L.rowList i).map Prod.fst ++
    (A.U.rowList i).map Prod.fst ++ (((A.U.rowList i).take m).flatMap fun e =>
    (A.L.rowList e.1).map Prod.fst ++ [e.1] ++ (A.U.rowList e.1).map Prod.fst) = isCols A m i from rfl] at hs6
  have hk := hs6.k
  have hsz := hs6.isz2
  have hlen := keysOf_length_le hs6.bnd
  have hbk : ∀ q (hq : q < (keysOf (isCols A m i)).length), (keysOf (isCols A m i))[q] < A.n := fun q hq =>
    hs6.bnd _ (mem_keysOf.1 (List.getElem_mem _))
  refine Ok_loop_le (fun j (iw : Arr ℕ) => iw.size = A.n ∧ ∀ c, c < A.n →
    iw.get c = if c ∈ (keysOf (isCols A m i)).take j then 0 else s6.iw.get c) (Nat.zero_le _) ⟨hs6.isz, by simp⟩ ?_ ?_
  · rintro j iw - hj ⟨a1, a2⟩
    simp only [Ok_bind, Ok_rd, Ok_wr]
    have hjl : j < (keysOf (isCols A m i)).length := by omega
    rw [hs6.fil j hjl]
    have := hbk j hjl
    refine ⟨by omega, by omega, a1, fun c hc => ?_⟩
    rw [Arr.set_get, a2 c hc, ← List.take_append_getElem hjl]
    simp only [List.mem_append, List.mem_singleton]
    by_cases e : c = (keysOf (isCols A m i))[j]
    · simp [e]
    · simp [e]
  · rintro iw' ⟨a1, a2⟩
    rw [Ok_pure]
    refine ⟨?_, ?_, a1, hsz, fun c hc => ?_⟩
    · rw [← keysOf_filter]; exact hs6.nl
    · rw [← keysOf_filter]; exact hs6.nu
    · rw [a2 c hc, hk, List.take_length]
      split
      · rfl
      · next hh => exact (hs6.iw c hc).2 fun hm => hh (mem_keysOf.2 hm)

end Lis
