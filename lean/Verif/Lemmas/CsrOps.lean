import Verif.Model.CsrOps
import Verif.Base.Lists3
import Verif.Lemmas.Convert1

/-! Lemmas for the CSR whole-matrix operations. -/

namespace Lis
open Finset
variable {R : Type}

theorem Arr.set_set {α : Type} (a : Arr α) (i : ℕ) (u v : α) : (a.set i u).set i v = a.set i v := by
  simp only [Arr.set]; congr 1; funext j; split <;> rfl

/-- row `i` stores a diagonal element -/
def Csr.StoresDiag (A : Csr R) (i : ℕ) : Prop :=
  ∃ k, A.ptr.get i ≤ k ∧ k < A.ptr.get (i + 1) ∧ A.index.get k = i

theorem Csr.entry_absent [AddCommMonoid R] {A : Csr R} {i j : ℕ}
    (h : ∀ k, A.ptr.get i ≤ k → k < A.ptr.get (i + 1) → A.index.get k ≠ j) : A.entry i j = 0 := by
  unfold Csr.entry
  refine sum_eq_zero fun k hk => ?_
  rw [mem_Ico] at hk
  rw [if_neg (h k hk.1 hk.2)]

theorem Csr.entry_single [AddCommMonoid R] {A : Csr R} {i j k : ℕ} (h1 : A.ptr.get i ≤ k)
    (h2 : k < A.ptr.get (i + 1)) (hk : A.index.get k = j)
    (hu : ∀ l, A.ptr.get i ≤ l → l < A.ptr.get (i + 1) → A.index.get l = j → l = k) :
    A.entry i j = A.value.get k := by
  unfold Csr.entry
  rw [sum_eq_single k]
  · rw [if_pos hk]
  · intro l hl hlk
    rw [mem_Ico] at hl
    rw [if_neg fun h => hlk (hu l hl.1 hl.2 h)]
  · intro h; exact absurd (mem_Ico.2 ⟨h1, h2⟩) h

/-- rows `< i` of the value array have been processed (`P r` holds), the rest is unchanged -/
structure RowsDone (A : Csr R) (P : ℕ → (ℕ → R) → Prop) (i : ℕ) (v : Arr R) : Prop where
  size : v.size = A.value.size
  later : ∀ k, A.ptr.get i ≤ k → v.get k = A.value.get k
  done : ∀ r, r < i → P r v.get

theorem RowsDone.start (A : Csr R) (P : ℕ → (ℕ → R) → Prop) : RowsDone A P 0 A.value :=
  ⟨rfl, fun _ _ => rfl, fun r hr => absurd hr (by omega)⟩

theorem RowsDone.step {A : Csr R} (hA : A.WF) {P : ℕ → (ℕ → R) → Prop}
    (hP : ∀ r (u v : ℕ → R), (∀ k, A.ptr.get r ≤ k → k < A.ptr.get (r + 1) → u k = v k) → P r u → P r v)
    {i : ℕ} (hi : i < A.n) {v v' : Arr R} (h : RowsDone A P i v) (hs : v'.size = v.size)
    (ho : ∀ k, ¬ (A.ptr.get i ≤ k ∧ k < A.ptr.get (i + 1)) → v'.get k = v.get k) (hp : P i v'.get) :
    RowsDone A P (i + 1) v' := by
  have hm := hA.ptr.mono i hi
  refine ⟨by rw [hs, h.size], fun k hk => by rw [ho k (by omega), h.later k (by omega)], fun r hr => ?_⟩
  by_cases hri : r = i
  · subst hri; exact hp
  · refine hP r v.get _ (fun k h1 h2 => ?_) (h.done r (by omega))
    have := hA.ptr.mono' (i := r + 1) (j := i) (by omega) (by omega)
    rw [ho k (by omega)]

/-- loop over the elements of a list stored from `lo` -/
theorem Ok_takeLoop {β σ : Type} {lo hi : ℕ} {l : List β} {s : σ} {g : ℕ → σ → Option σ}
    (I : List β → σ → Prop) {Q : σ → Prop} (hlen : hi = lo + l.length) (h0 : I [] s)
    (hs : ∀ q (hq : q < l.length) s, I (l.take q) s → Ok (g (lo + q) s) (I (l.take q ++ [l[q]])))
    (hq : ∀ s, I l s → Q s) : Ok (loop lo hi s g) Q := by
  refine Ok_loop_le (fun j s => I (l.take (j - lo)) s) (by omega) (by simpa using h0) ?_ ?_
  · intro j s h1 h2 hI
    have := hs (j - lo) (by omega) s hI
    rw [show lo + (j - lo) = j by omega] at this
    refine this.mono fun s' hs' => ?_
    rwa [show j + 1 - lo = j - lo + 1 by omega, ← List.take_append_getElem (by omega)]
  · intro s hI
    apply hq
    rwa [hlen, show lo + l.length - lo = l.length by omega, List.take_length] at hI

theorem Csr.rowList_get (A : Csr R) (i q : ℕ) (h : q < (A.rowList i).length) :
    (A.rowList i)[q] = (A.index.get (A.ptr.get i + q), A.value.get (A.ptr.get i + q)) := by
  simp [Csr.rowList]

theorem Csr.WF.row_end {A : Csr R} (h : A.WF) {i : ℕ} (hi : i < A.n) :
    A.ptr.get (i + 1) = A.ptr.get i + (A.rowList i).length := by
  have := h.ptr.mono i hi
  rw [Csr.rowList_length]; omega

/-! ### split -/

theorem filter_one {α : Type} (p : α → Prop) [DecidablePred p] (e : α) :
    [e].filter (fun x => decide (p x)) = if p e then [e] else [] := by
  by_cases h : p e <;> simp [h]

/-- elements of row `i` left / right of the diagonal -/
def Csr.lowRow (A : Csr R) (i : ℕ) : List (ℕ × R) := (A.rowList i).filter fun e => decide (e.1 < i)
def Csr.upRow (A : Csr R) (i : ℕ) : List (ℕ × R) := (A.rowList i).filter fun e => decide (e.1 > i)

/-- what the diagonal slot holds after scanning `l` -/
def diagSlot (l : List (ℕ × R)) (i : ℕ) (d : R) : R := l.foldl (fun d e => if e.1 = i then e.2 else d) d

theorem diagSlot_snoc (l : List (ℕ × R)) (e : ℕ × R) (i : ℕ) (d : R) :
    diagSlot (l ++ [e]) i d = if e.1 = i then e.2 else diagSlot l i d := by
  simp [diagSlot]

theorem diagSlot_absent {l : List (ℕ × R)} {i : ℕ} {d : R} (h : ∀ e ∈ l, e.1 ≠ i) : diagSlot l i d = d := by
  induction l using List.reverseRecOn with
  | nil => rfl
  | append_singleton l e ih =>
    rw [diagSlot_snoc, if_neg (h e (by simp)), ih fun x hx => h x (by simp [hx])]

theorem diagSlot_once {l : List (ℕ × R)} {i : ℕ} {d v : R} (hm : (i, v) ∈ l)
    (hd : ∀ e ∈ l, e.1 = i → e.2 = v) : diagSlot l i d = v := by
  induction l using List.reverseRecOn with
  | nil => simp at hm
  | append_singleton l e ih =>
    rw [diagSlot_snoc]
    split
    · next he => exact hd e (by simp) he
    · next he =>
      refine ih ?_ fun x hx => hd x (by simp [hx])
      rw [List.mem_append] at hm
      rcases hm with hm | hm
      · exact hm
      · simp only [List.mem_singleton] at hm; rw [← hm] at he; exact absurd rfl he

theorem Csr.mem_rowList {A : Csr R} {i : ℕ} {e : ℕ × R} : e ∈ A.rowList i ↔
    ∃ k, A.ptr.get i ≤ k ∧ k < A.ptr.get (i + 1) ∧ e = (A.index.get k, A.value.get k) := by
  simp only [Csr.rowList, List.mem_map, List.mem_range]
  constructor
  · rintro ⟨q, hq, rfl⟩; exact ⟨A.ptr.get i + q, by omega, by omega, rfl⟩
  · rintro ⟨k, h1, h2, rfl⟩
    exact ⟨k - A.ptr.get i, by omega, by rw [show A.ptr.get i + (k - A.ptr.get i) = k by omega]⟩

theorem filter_keysum [AddCommMonoid R] (l : List (ℕ × R)) (p : ℕ → Prop) [DecidablePred p] (j : ℕ) :
    ((l.filter fun e => decide (p e.1)).map fun e => if e.1 = j then e.2 else 0).sum =
      if p j then (l.map fun e => if e.1 = j then e.2 else 0).sum else 0 := by
  induction l with
  | nil => simp
  | cons e l ih =>
    rw [List.filter_cons]
    by_cases hp : p e.1
    · simp only [hp, decide_true, if_true, List.map_cons, List.sum_cons, ih]
      by_cases hj : e.1 = j
      · have hpj : p j := hj ▸ hp
        simp [hpj]
      · simp [hj]
    · simp only [hp, decide_false, Bool.false_eq_true, if_false, ih, List.map_cons, List.sum_cons]
      by_cases hj : e.1 = j
      · have hpj : ¬ p j := hj ▸ hp
        simp [hpj]
      · simp [hj]

theorem splitCountCsr_spec {A : Csr R} (h : A.WF) :
    Ok (splitCountCsr A) fun r => r = ((concatRows A.n A.lowRow).length, (concatRows A.n A.upRow).length) := by
  have hps := h.ptr.size
  unfold splitCountCsr
  refine Ok_loop_le (fun i r => r = ((concatRows i A.lowRow).length, (concatRows i A.upRow).length)) (Nat.zero_le _)
    rfl ?_ fun s hs => hs
  rintro i s - hi rfl
  simp only [Ok_bind, Ok_rd]
  refine ⟨by omega, by omega, ?_⟩
  refine Ok_takeLoop (l := A.rowList i) (fun l r =>
    r = ((concatRows i A.lowRow).length + (l.filter fun e => decide (e.1 < i)).length,
         (concatRows i A.upRow).length + (l.filter fun e => decide (e.1 > i)).length)) (h.row_end hi) (by simp) ?_ ?_
  · rintro q hq s rfl
    have hk : A.ptr.get i + q < A.nnz := h.ptr.lt_nnz hi (by rw [h.row_end hi]; omega)
    have his := h.isz
    simp only [Ok_bind, Ok_rd, Ok_ite, Ok_pure]
    rw [Csr.rowList_get]
    refine ⟨by omega, fun hc => ?_, fun hc => ⟨fun hc' => ?_, fun hc' => ?_⟩⟩
    · simp only [List.filter_append, List.length_append]
      rw [filter_one, filter_one, if_pos (by simpa using hc), if_neg (by simp; omega)]
      simp; omega
    · simp only [List.filter_append, List.length_append]
      rw [filter_one, filter_one, if_neg (by simp; omega), if_pos (by simpa using hc')]
      simp; omega
    · simp only [List.filter_append, List.length_append]
      rw [filter_one, filter_one, if_neg (by simp; omega), if_neg (by simp; omega)]
      simp
  · rintro s rfl
    rw [concatRows_succ, concatRows_succ, List.length_append, List.length_append]
    rfl

theorem splitRowCsr_spec {A : Csr R} (h : A.WF) (hnp : A.n ≤ A.np) {i : ℕ} (hi : i < A.n) {cl cu : ℕ}
    (hcl : (concatRows (i + 1) A.lowRow).length ≤ cl) (hcu : (concatRows (i + 1) A.upRow).length ≤ cu)
    {s : SplitSt R} (hl : Pushed cl (concatRows i A.lowRow) s.1) (hu : Pushed cu (concatRows i A.upRow) s.2.1)
    (hd : s.2.2.size = A.np) :
    Ok (splitRowCsr A i s) fun s' => Pushed cl (concatRows (i + 1) A.lowRow) s'.1 ∧
      Pushed cu (concatRows (i + 1) A.upRow) s'.2.1 ∧
      s'.2.2.size = A.np ∧ (∀ r, r ≠ i → s'.2.2.get r = s.2.2.get r) ∧
      s'.2.2.get i = diagSlot (A.rowList i) i (s.2.2.get i) := by
  have hps := h.ptr.size
  have his := h.isz
  have hvs := h.vsz
  unfold splitRowCsr
  simp only [Ok_bind, Ok_rd]
  refine ⟨by omega, by omega, ?_⟩
  refine Ok_takeLoop (l := A.rowList i) (fun l (s' : SplitSt R) =>
    Pushed cl (concatRows i A.lowRow ++ l.filter fun e => decide (e.1 < i)) s'.1 ∧
    Pushed cu (concatRows i A.upRow ++ l.filter fun e => decide (e.1 > i)) s'.2.1 ∧
      s'.2.2.size = A.np ∧ (∀ r, r ≠ i → s'.2.2.get r = s.2.2.get r) ∧
      s'.2.2.get i = diagSlot l i (s.2.2.get i)) (h.row_end hi) ?_ ?_ ?_
  · simpa [diagSlot] using ⟨hl, hu, hd⟩
  · rintro q hq ⟨⟨kl, lix, lvl⟩, ⟨ku, uix, uvl⟩, D⟩ ⟨h1, h2, h3, h4, h5⟩
    have hk : A.ptr.get i + q < A.nnz := h.ptr.lt_nnz hi (by rw [h.row_end hi]; omega)
    have hroom : ∀ (p : ℕ × R → Bool), (((A.rowList i).take q ++ [(A.rowList i)[q]]).filter p).length ≤
        ((A.rowList i).filter p).length := fun p => by
      rw [List.take_append_getElem]
      exact (List.Sublist.filter p (List.take_sublist _ _)).length_le
    have hl2 := hroom fun e => decide (e.1 < i)
    have hu2 := hroom fun e => decide (e.1 > i)
    rw [concatRows_succ, List.length_append] at hcl hcu
    unfold Csr.lowRow at hcl
    unfold Csr.upRow at hcu
    rw [Csr.rowList_get] at hl2 hu2 ⊢
    simp only [List.filter_append, ← List.append_assoc, diagSlot_snoc, filter_one] at hl2 hu2 ⊢
    simp only at h1 h2 h3 h4 h5
    simp only [Ok_bind, Ok_rd, Ok_ite, Ok_pure, Ok_wr]
    set c := A.index.get (A.ptr.get i + q)
    set v := A.value.get (A.ptr.get i + q)
    refine ⟨by omega, by omega, fun hc => ?_, fun hc => ⟨fun hc' => ?_, fun hc' => ?_⟩⟩
    · rw [if_pos (by simpa using hc)] at hl2 ⊢
      rw [if_neg (by simp; omega)]
      obtain ⟨a1, a2, a3⟩ := h1.push (c, v) (by
        simp only [List.length_append] at hl2 ⊢; unfold Csr.lowRow at *; omega)
      rw [if_neg (by omega : ¬ c = i)]
      refine ⟨a1, a2, a3, by simpa using h2, h3, h4, h5⟩
    · rw [if_pos (show c > i from hc')] at hu2 ⊢
      rw [if_neg (show ¬ c < i by omega)]
      obtain ⟨a1, a2, a3⟩ := h2.push (c, v) (by
        simp only [List.length_append] at hu2 ⊢; unfold Csr.upRow at *; omega)
      rw [if_neg (by omega : ¬ c = i)]
      refine ⟨a1, a2, by simpa using h1, a3, h3, h4, h5⟩
    · rw [if_neg (by simp; omega), if_neg (by simp; omega), if_pos (by omega : c = i)]
      refine ⟨by omega, by simpa using h1, by simpa using h2, by simpa using h3, fun r hr => ?_, by simp⟩
      rw [Arr.set_get_ne _ _ hr]; exact h4 r hr
  · rintro s' ⟨h1, h2, h3, h4, h5⟩
    rw [concatRows_succ, concatRows_succ]
    exact ⟨h1, h2, h3, h4, h5⟩

theorem splitCsr_spec' (junk : ℕ → ℕ → ℕ) (vjunk : ℕ → ℕ → R) (djunk : ℕ → R) {A : Csr R} (h : A.WF)
    (hnp : A.n ≤ A.np) :
    Ok (splitCsr junk vjunk djunk A) fun S => S.n = A.n ∧ S.np = A.np ∧ S.L.n = A.n ∧ S.L.np = A.np ∧
      S.U.n = A.n ∧ S.U.np = A.np ∧ S.L.Rows A.lowRow ∧ S.U.Rows A.upRow ∧ S.D.size = A.np ∧
      ∀ i, i < A.n → S.D.get i = diagSlot (A.rowList i) i (djunk i) := by
  unfold splitCsr
  rw [Ok_bind]
  refine (splitCountCsr_spec h).mono ?_
  rintro _ rfl
  simp only [Ok_bind, Ok_wr]
  refine ⟨by simp, by simp, ?_⟩
  refine Ok_loop_le (fun i (p : (Arr ℕ × Arr ℕ) × SplitSt R) =>
    p.1.1.size = A.n + 1 ∧ p.1.2.size = A.n + 1 ∧
    (∀ k, k ≤ i → p.1.1.get k = (concatRows k A.lowRow).length) ∧
    (∀ k, k ≤ i → p.1.2.get k = (concatRows k A.upRow).length) ∧
    Pushed (concatRows A.n A.lowRow).length (concatRows i A.lowRow) p.2.1 ∧
    Pushed (concatRows A.n A.upRow).length (concatRows i A.upRow) p.2.2.1 ∧
    p.2.2.2.size = A.np ∧
    (∀ r, r < i → p.2.2.2.get r = diagSlot (A.rowList r) r (djunk r)) ∧
    (∀ r, i ≤ r → p.2.2.2.get r = djunk r)) (Nat.zero_le _) ?_ ?_ ?_
  · refine ⟨rfl, rfl, ?_, ?_, ⟨rfl, rfl, rfl, Filled.nil _⟩, ⟨rfl, rfl, rfl, Filled.nil _⟩, rfl, ?_, fun _ _ => rfl⟩
    · intro k hk; obtain rfl : k = 0 := by omega
      simp
    · intro k hk; obtain rfl : k = 0 := by omega
      simp
    · intro r hr; omega
  · rintro i ⟨⟨lp, up⟩, s⟩ - hi ⟨a1, a2, a3, a4, a5, a6, a7, a8, a9⟩
    simp only at a1 a2 a3 a4 a5 a6 a7 a8 a9
    rw [Ok_bind]
    refine (splitRowCsr_spec h hnp hi (concatRows_prefix hi _).length_le (concatRows_prefix hi _).length_le
      a5 a6 a7).mono ?_
    rintro s' ⟨b1, b2, b3, b4, b5⟩
    simp only [Ok_bind, Ok_wr]
    refine ⟨by omega, by omega, ?_⟩
    rw [Ok_pure]
    refine ⟨a1, a2, fun k hk => ?_, fun k hk => ?_, b1, b2, b3, fun r hr => ?_, fun r hr => ?_⟩
    · rw [Arr.set_get]; split
      · next hk' => rw [hk', b1.pos]
      · exact a3 k (by omega)
    · rw [Arr.set_get]; split
      · next hk' => rw [hk', b2.pos]
      · exact a4 k (by omega)
    · by_cases hri : r = i
      · subst hri; show s'.2.2.get r = _
        rw [b5, a9 r le_rfl]
      · show s'.2.2.get r = _
        rw [b4 r hri, a8 r (by omega)]
    · show s'.2.2.get r = _
      rw [b4 r (by omega), a9 r (by omega)]
  · rintro ⟨⟨lp, up⟩, s⟩ ⟨a1, a2, a3, a4, a5, a6, a7, a8, a9⟩
    simp only at a1 a2 a3 a4 a5 a6 a7 a8 a9
    rw [Ok_pure]
    refine ⟨rfl, rfl, rfl, rfl, rfl, rfl, ⟨by simp [a1], a3, a5.pos, ?_, ?_, a5.fil⟩,
      ⟨by simp [a2], a4, a6.pos, ?_, ?_, a6.fil⟩, a7, a8⟩
    · simp only; rw [a5.pos, a5.isz]
    · simp only; rw [a5.pos, a5.vsz]
    · simp only; rw [a6.pos, a6.isz]
    · simp only; rw [a6.pos, a6.vsz]

/-! ### merge -/

def SplitCsr.mrow (A : SplitCsr R) (i : ℕ) : List (ℕ × R) := A.L.rowList i ++ (i, A.D.get i) :: A.U.rowList i

theorem mergeRow_spec {B : Csr R} (h : B.WF) {i cap : ℕ} (hi : i < B.n) {E : List (ℕ × R)} {s : ℕ × Arr ℕ × Arr R}
    (hP : Pushed cap E s) (hc : (E ++ B.rowList i).length ≤ cap) :
    Ok (mergeRow B i s) (Pushed cap (E ++ B.rowList i)) := by
  have hps := h.ptr.size
  have his := h.isz
  have hvs := h.vsz
  unfold mergeRow
  simp only [Ok_bind, Ok_rd]
  refine ⟨by omega, by omega, ?_⟩
  refine Ok_takeLoop (l := B.rowList i) (fun l s => Pushed cap (E ++ l) s) (h.row_end hi) (by simpa using hP) ?_
    fun s hs => hs
  rintro q hq ⟨k, ix, vl⟩ h1
  have hk : B.ptr.get i + q < B.nnz := h.ptr.lt_nnz hi (by rw [h.row_end hi]; omega)
  obtain ⟨a1, a2, a3⟩ := h1.push (B.rowList i)[q] (by
    rw [List.append_assoc, List.take_append_getElem]
    simp only [List.length_append, List.length_take] at hc ⊢; omega)
  rw [List.append_assoc] at a3
  rw [Csr.rowList_get] at a3 ⊢
  simp only [Ok_bind, Ok_rd, Ok_wr, Ok_pure]
  exact ⟨by omega, by omega, a1, a2, a3⟩

theorem mrow_len {A : SplitCsr R} (h : A.WF) {i : ℕ} (hi : i ≤ A.n) :
    (concatRows i A.mrow).length = A.L.ptr.get i + A.U.ptr.get i + i := by
  induction i with
  | zero => simp [h.lwf.ptr.zero, h.uwf.ptr.zero]
  | succ i ih =>
    rw [concatRows_succ, List.length_append, ih (by omega), h.lwf.row_end (by rw [h.ln]; omega),
      h.uwf.row_end (by rw [h.un]; omega)]
    simp only [SplitCsr.mrow, List.length_append, List.length_cons]; omega

theorem mergeCsr_spec' (junk : ℕ → ℕ → ℕ) (vjunk : ℕ → R) {A : SplitCsr R} (h : A.WF) :
    Ok (mergeCsr junk vjunk A) fun C => C.n = A.n ∧ C.np = A.np ∧ C.Rows A.mrow := by
  have hds := h.dsz
  have hlast : A.L.nnz + A.U.nnz + A.n = (concatRows A.n A.mrow).length := by
    rw [mrow_len h le_rfl, ← h.lwf.ptr.last, ← h.uwf.ptr.last, h.ln, h.un]
  unfold mergeCsr
  simp only [Ok_bind, Ok_wr]
  refine ⟨by simp, ?_⟩
  refine Ok_loop_le (fun i (p : Arr ℕ × (ℕ × Arr ℕ × Arr R)) => p.1.size = A.n + 1 ∧
    (∀ k, k ≤ i → p.1.get k = (concatRows k A.mrow).length) ∧
    Pushed (concatRows A.n A.mrow).length (concatRows i A.mrow) p.2) (Nat.zero_le _) ?_ ?_ ?_
  · refine ⟨rfl, ?_, ⟨rfl, by simp [hlast], by simp [hlast], Filled.nil _⟩⟩
    intro k hk; obtain rfl : k = 0 := by omega
    simp
  · rintro i ⟨ptr, s⟩ - hi ⟨a1, a2, a3⟩
    simp only at a1 a2 a3
    have hpre := (concatRows_prefix hi A.mrow).length_le
    rw [concatRows_succ] at hpre
    simp only [SplitCsr.mrow, List.length_append, List.length_cons] at hpre
    rw [Ok_bind]
    refine (mergeRow_spec h.lwf (by rw [h.ln]; omega) a3 (by rw [List.length_append]; omega)).mono ?_
    rintro ⟨k, ix, vl⟩ b1
    obtain ⟨c1, c2, c3⟩ := b1.push (i, A.D.get i) (by
      simp only [List.length_append, List.length_singleton] at *; omega)
    simp only [Ok_bind, Ok_rd, Ok_wr]
    refine ⟨by omega, c1, c2, ?_⟩
    refine (mergeRow_spec h.uwf (by rw [h.un]; omega) c3 (by
      simp only [List.length_append, List.length_singleton] at *; omega)).mono ?_
    intro s' d1
    refine ⟨by omega, ?_⟩
    rw [Ok_pure]
    have heq : concatRows i A.mrow ++ A.L.rowList i ++ [(i, A.D.get i)] ++ A.U.rowList i = concatRows (i + 1) A.mrow := by
      rw [concatRows_succ]; simp [SplitCsr.mrow]
    rw [heq] at d1
    refine ⟨a1, fun k hk => ?_, d1⟩
    rw [Arr.set_get]; split
    · next hk' => rw [hk', d1.pos]
    · exact a2 k (by omega)
  · rintro ⟨ptr, s⟩ ⟨a1, a2, a3⟩
    simp only at a1 a2 a3
    rw [Ok_pure]
    refine ⟨rfl, rfl, ⟨by simp [a1], a2, a3.pos, ?_, ?_, a3.fil⟩⟩
    · simp only; rw [a3.pos, a3.isz]
    · simp only; rw [a3.pos, a3.vsz]

end Lis
