import Verif.Props.SolveDnsEll
import Verif.Model.SolveDia

/-!
# C70: triangular solves with split DIA matrices
-/

namespace Lis
open Finset
variable {R : Type}

/-- the stored diagonals of `L` lie below the main diagonal, those of `U` above -/
structure SplitDia.Strict (A : SplitDia R) : Prop where
  low : ∀ d, d < A.L.nnd → A.L.index.get d < 0
  up : ∀ d, d < A.U.nnd → 0 < A.U.index.get d

/-- the guard tells whether column `i + offset` exists, for the offsets that occur -/
def GuardOk (up : Bool) (A : Dia R) : Prop :=
  ∀ d, d < A.nnd → if up then 0 < A.index.get d else A.index.get d < 0

theorem SplitDia.Strict.gl {A : SplitDia R} (h : A.Strict) : GuardOk false A.L := fun d hd => by simpa using h.low d hd

theorem SplitDia.Strict.gu {A : SplitDia R} (h : A.Strict) : GuardOk true A.U := fun d hd => by simpa using h.up d hd

theorem GuardOk.iff {up : Bool} {A : Dia R} (h : GuardOk up A) {d i n : ℕ} (hd : d < A.nnd) (hi : i < n) :
    (diaGuard up n (i + A.index.get d) = true ↔ (0 ≤ (i : ℤ) + A.index.get d ∧ (i : ℤ) + A.index.get d < n)) := by
  have := h d hd
  cases up
  · simp only [diaGuard, Bool.false_eq_true, if_false, decide_eq_true_eq] at this ⊢; omega
  · simp only [diaGuard, if_true, decide_eq_true_eq] at this ⊢; omega

theorem Dia.slot {A : Dia R} (hA : A.WF) {i d : ℕ} (hi : i < A.n) (hd : d < A.nnd) : d * A.n + i < A.value.size := by
  have h1 := hA.vsz
  have h2 := Nat.mul_le_mul_right A.n (show d + 1 ≤ A.nnd from hd)
  rw [Nat.add_mul, Nat.one_mul] at h2
  omega

section gather
variable [CommRing R]

theorem SplitDia.Strict.lowE {A : SplitDia R} (hs : A.Strict) {i j : ℕ} (hij : i ≤ j) : A.L.entry i j = 0 := by
  unfold Dia.entry
  refine sum_eq_zero fun d hd => ?_
  have := hs.low d (mem_range.1 hd)
  rw [if_neg (by omega)]

theorem SplitDia.Strict.upE {A : SplitDia R} (hs : A.Strict) {i j : ℕ} (hij : j ≤ i) : A.U.entry i j = 0 := by
  unfold Dia.entry
  refine sum_eq_zero fun d hd => ?_
  have := hs.up d (mem_range.1 hd)
  rw [if_neg (by omega)]

theorem Dia.dotRow {up : Bool} {A : Dia R} (g : GuardOk up A) {i : ℕ} (hi : i < A.n) (u : ℕ → R) :
    (∑ d ∈ Ico 0 A.nnd, if diaGuard up A.n (i + A.index.get d) = true then
      A.value.get (d * A.n + i) * u ((i : ℤ) + A.index.get d).toNat else 0) = dotRow A.n A.entry i u := by
  unfold Lis.dotRow Dia.entry
  simp only [sum_mul]
  rw [sum_comm, ← range_eq_Ico]
  refine sum_congr rfl fun d hd => ?_
  have hg := g.iff (mem_range.1 hd) hi
  simp only [ite_mul, zero_mul]
  by_cases hc : 0 ≤ (i : ℤ) + A.index.get d ∧ (i : ℤ) + A.index.get d < A.n
  · rw [if_pos (hg.2 hc), sum_eq_single ((i : ℤ) + A.index.get d).toNat]
    · rw [if_pos (by omega)]
    · intro j _ hj; rw [if_neg (by omega)]
    · intro hj; rw [mem_range] at hj; omega
  · rw [if_neg (fun e => hc (hg.1 e)), sum_eq_zero]
    intro j hj
    rw [mem_range] at hj
    rw [if_neg (by omega)]

theorem solveRowDia_spec {up : Bool} {n : ℕ} {A : Dia R} (hn : A.n = n) (hA : A.WF) (g : GuardOk up A) {wd : Arr R}
    (hw : n ≤ wd.size) {b x i : ℕ} (hi : i < n) {h : Vecs R} (hb : n ≤ (h b).value.size) (hx : n ≤ (h x).value.size) :
    Ok (solveRowDia up n A wd b x i h) fun h' =>
      h' = h.upd x i (((h b).value.get i - dotRow n A.entry i (h x).value.get) * wd.get i) := by
  subst hn
  have his := hA.isz
  unfold solveRowDia
  simp only [Ok_bind, Ok_vrd]
  refine ⟨by omega, ?_⟩
  refine Ok_loop_sum' (fun d => - (if diaGuard up A.n (i + A.index.get d) = true then
      A.value.get (d * A.n + i) * (h x).value.get ((i : ℤ) + A.index.get d).toNat else 0)) (fun d t _ d2 => ?_) ?_
  · have := Dia.slot hA hi d2
    have hg := g.iff d2 hi
    simp only [Ok_bind, Ok_rd]
    refine ⟨by omega, ?_⟩
    by_cases hc : diaGuard up A.n (i + A.index.get d) = true
    · have := hg.1 hc
      rw [if_pos hc, if_pos hc]
      simp only [Ok_bind, Ok_rd, vrdI]
      rw [if_pos this.1]
      simp only [Ok_vrd, Ok_pure]
      exact ⟨by omega, by omega, by rw [sub_eq_add_neg]⟩
    · rw [if_neg hc, if_neg hc, neg_zero, add_zero, Ok_pure]
  · simp only [Ok_rd, Ok_vwr]
    exact ⟨by omega, by omega, by rw [sum_neg_distrib, ← sub_eq_add_neg, Dia.dotRow g hi]; rfl⟩

/-- **C70 (LOWER).** `(D+L) x = b`. -/
theorem solveLowerDia_spec {A : SplitDia R} (hA : A.WF) (hs : A.Strict) {wd : Arr R} (hw : A.n ≤ wd.size) {b x : ℕ}
    {h : Vecs R} (hb : A.n ≤ (h b).value.size) (hx : A.n ≤ (h x).value.size) {D : ℕ → R}
    (hwd : ∀ i, i < A.n → D i * wd.get i = 1) :
    Ok (solveLowerDia A wd b x h) fun h' => OnlyChanged h x A.n h' ∧ SolvesTri A.n D A.L.entry (h'.el x) (h.el b) := by
  refine gatherUp (fun i j _ _ hij => hs.lowE hij) hwd fun i h' hi hc => ?_
  have s1 := other_size hc b
  have s2 := other_size hc x
  exact solveRowDia_spec hA.ln hA.lwf hs.gl hw hi (by omega) (by omega)

/-- **C70 (UPPER).** `(D+U) x = b`. -/
theorem solveUpperDia_spec {A : SplitDia R} (hA : A.WF) (hs : A.Strict) {wd : Arr R} (hw : A.n ≤ wd.size) {b x : ℕ}
    {h : Vecs R} (hb : A.n ≤ (h b).value.size) (hx : A.n ≤ (h x).value.size) {D : ℕ → R}
    (hwd : ∀ i, i < A.n → D i * wd.get i = 1) :
    Ok (solveUpperDia A wd b x h) fun h' => OnlyChanged h x A.n h' ∧ SolvesTri A.n D A.U.entry (h'.el x) (h.el b) := by
  refine gatherDown (fun i j _ _ hij => hs.upE hij) hwd fun i h' hi hc => ?_
  have s1 := other_size hc b
  have s2 := other_size hc x
  exact solveRowDia_spec hA.un hA.uwf hs.gu hw hi (by omega) (by omega)

/-- **C70 (SSOR).** `(D+L) D⁻¹ (D+U) x = b`. -/
theorem solveSsorDia_spec {A : SplitDia R} (hA : A.WF) (hs : A.Strict) {wd : Arr R} (hw : A.n ≤ wd.size) {b x : ℕ}
    {h : Vecs R} (hb : A.n ≤ (h b).value.size) (hx : A.n ≤ (h x).value.size) {D : ℕ → R}
    (hwd : ∀ i, i < A.n → D i * wd.get i = 1) :
    Ok (solveSsorDia A wd b x h) fun h' => OnlyChanged h x A.n h' ∧
      SolvesSsor A.n D A.L.entry A.U.entry (h'.el x) (h.el b) := by
  have hun := hA.un
  have his := hA.uwf.isz
  have g : GuardOk true A.U := hs.gu
  unfold solveSsorDia
  rw [Ok_bind]
  refine (solveLowerDia_spec hA hs hw hb hx hwd).mono ?_
  rintro h1 ⟨c1, f1⟩
  have s1 := other_size c1 x
  refine (gatherSsor (x := x) (E := A.U.entry) (fun i j _ _ hij => hs.upE hij) hwd
    fun i h' hi hc => ?_).mono fun h2 ⟨c2, f2⟩ => ⟨c1.trans c2, _, f1, f2⟩
  have s2 := other_size hc x
  rw [Ok_bind, ← hun]
  refine Ok_loop_sum' (fun d => if diaGuard true A.U.n (i + A.U.index.get d) = true then
      A.U.value.get (d * A.U.n + i) * (h' x).value.get ((i : ℤ) + A.U.index.get d).toNat else 0) (fun d t _ d2 => ?_) ?_
  · have := Dia.slot hA.uwf (show i < A.U.n by omega) d2
    have hg := g.iff d2 (show i < A.U.n by omega)
    simp only [Ok_bind, Ok_rd]
    refine ⟨by omega, ?_⟩
    by_cases hc : diaGuard true A.U.n (i + A.U.index.get d) = true
    · have := hg.1 hc
      rw [if_pos hc, if_pos hc]
      simp only [Ok_bind, Ok_rd, vrdI]
      rw [if_pos this.1]
      simp only [Ok_vrd, Ok_pure]
      exact ⟨by omega, by omega, trivial⟩
    · rw [if_neg hc, if_neg hc, add_zero, Ok_pure]
  · rw [Dia.dotRow g (by omega)]
    simp only [Ok_bind, Ok_vrd, Ok_rd, Ok_vwr]
    exact ⟨by omega, by omega, by omega, by rw [zero_add]; rfl⟩

/-- as `scatterSlots`, for the slots that pass a guard -/
theorem scatterGuard {m i n x : ℕ} (act : ℕ → Prop) [DecidablePred act] {c : ℕ → ℕ} {w : ℕ → R} {T : R} {h0 h : Vecs R}
    (h0c : OnlyChanged h0 x n h) (hc : ∀ k, k < m → act k → c k < n) (hself : ∀ k, k < m → act k → c k ≠ i)
    {f : ℕ → Vecs R → Option (Vecs R)}
    (hf : ∀ k h', k < m → act k → (h' x).value.size = (h x).value.size → (h' x).value.get i = (h x).value.get i →
      Ok (f k h') fun h'' => h'' = h'.upd x (c k) ((h' x).value.get (c k) - w k * T))
    (hn : ∀ k h', k < m → ¬ act k → Ok (f k h') fun h'' => h'' = h') :
    Ok (loop 0 m h f) fun h' => OnlyChanged h0 x n h' ∧
      ∀ a, (h' x).value.get a = (h x).value.get a - (∑ k ∈ range m, if act k ∧ c k = a then w k else 0) * T := by
  refine Ok_loop_le (fun m h' => OnlyChanged h0 x n h' ∧ (h' x).value.size = (h x).value.size ∧
    (h' x).value.get i = (h x).value.get i ∧
    ∀ a, (h' x).value.get a = (h x).value.get a - (∑ k ∈ range m, if act k ∧ c k = a then w k else 0) * T) (Nat.zero_le _)
    ⟨h0c, rfl, rfl, by simp⟩ ?_ fun h' ⟨a, _, _, b⟩ => ⟨a, b⟩
  rintro k h' - k2 ⟨a1, a2, a4, a3⟩
  by_cases ha : act k
  · refine (hf k h' k2 ha a2 a4).mono ?_
    rintro _ rfl
    refine ⟨a1.upd (hc k k2 ha) _, by simp [Vecs.upd, a2], ?_, fun a => ?_⟩
    · rw [upd_get, if_neg (hself k k2 ha).symm, a4]
    · rw [upd_get, sum_range_succ]
      split
      · next e => rw [e, if_pos ⟨ha, rfl⟩, a3]; ring
      · next e => rw [if_neg fun hh => e hh.2.symm, a3, add_zero]
  · refine (hn k h' k2 ha).mono ?_
    rintro _ rfl
    refine ⟨a1, a2, a4, fun a => ?_⟩
    rw [sum_range_succ, if_neg fun hh => ha hh.1, add_zero, a3]

end gather

section scatter
variable [CommRing R] [StarRing R]

theorem Dia.starEntry {up : Bool} {A : Dia R} (g : GuardOk up A) {i a : ℕ} (hi : i < A.n) (ha : a < A.n) :
    (∑ d ∈ range A.nnd, if diaGuard up A.n (i + A.index.get d) = true ∧ ((i : ℤ) + A.index.get d).toNat = a then
      star (A.value.get (d * A.n + i)) else 0) = star (A.entry i a) := by
  unfold Dia.entry
  rw [star_sum]
  refine sum_congr rfl fun d hd => ?_
  have hg := g.iff (mem_range.1 hd) hi
  by_cases e : A.index.get d = (a : ℤ) - i
  · rw [if_pos e, if_pos ⟨hg.2 (by omega), by omega⟩]
  · rw [if_neg e, star_zero, if_neg]
    rintro ⟨e1, e2⟩
    have := hg.1 e1
    omega

theorem scatterDiaT_spec {up : Bool} {n : ℕ} {A : Dia R} (hn : A.n = n) (hA : A.WF) (g : GuardOk up A) {x i : ℕ} (hi : i < n)
    {h0 h : Vecs R} (hc : OnlyChanged h0 x n h) (hx : n ≤ (h x).value.size) (t : R) :
    Ok (scatterDiaT star up n A x i t h) fun h' => OnlyChanged h0 x n h' ∧
      ∀ a, a < n → (h' x).value.get a = (h x).value.get a - star (A.entry i a) * t := by
  subst hn
  have his := hA.isz
  unfold scatterDiaT
  refine (scatterGuard (i := i) (T := t) (fun d => diaGuard up A.n (i + A.index.get d) = true)
    (c := fun d => ((i : ℤ) + A.index.get d).toNat) (w := fun d => star (A.value.get (d * A.n + i))) hc
    (fun d d2 e => by have := (g.iff d2 hi).1 e; beta_reduce; omega)
    (fun d d2 e => by
      have := (g.iff d2 hi).1 e
      have g2 := g d d2
      beta_reduce
      split at g2 <;> omega) (fun d h' d2 e e1 e2 => ?_) (fun d h' d2 e => ?_)).mono ?_
  · have hs := Dia.slot hA hi d2
    have hg := (g.iff d2 hi).1 e
    simp only [Ok_bind, Ok_rd]
    refine ⟨by omega, ?_⟩
    rw [if_pos e]
    simp only [Ok_bind, Ok_rd, vrdI, vwrI]
    rw [if_pos hg.1]
    simp only [if_pos hg.1, Ok_vrd]
    rw [Ok_vwr]
    exact ⟨by omega, by omega, by omega, rfl⟩
  · simp only [Ok_bind, Ok_rd]
    refine ⟨by omega, ?_⟩
    rw [if_neg e, Ok_pure]
  · rintro h' ⟨a1, a2⟩
    exact ⟨a1, fun a ha => by rw [a2, Dia.starEntry g hi ha]⟩

theorem scatterDiaX_spec {up : Bool} {n : ℕ} {A : Dia R} (hn : A.n = n) (hA : A.WF) (g : GuardOk up A) {x i : ℕ} (hi : i < n)
    {h0 h : Vecs R} (hc : OnlyChanged h0 x n h) (hx : n ≤ (h x).value.size) :
    Ok (scatterDiaX star up n A x i h) fun h' => OnlyChanged h0 x n h' ∧
      ∀ a, a < n → (h' x).value.get a = (h x).value.get a - star (A.entry i a) * (h x).value.get i := by
  subst hn
  have his := hA.isz
  unfold scatterDiaX
  refine (scatterGuard (i := i) (T := (h x).value.get i) (fun d => diaGuard up A.n (i + A.index.get d) = true)
    (c := fun d => ((i : ℤ) + A.index.get d).toNat) (w := fun d => star (A.value.get (d * A.n + i))) hc
    (fun d d2 e => by have := (g.iff d2 hi).1 e; beta_reduce; omega)
    (fun d d2 e => by
      have := (g.iff d2 hi).1 e
      have g2 := g d d2
      beta_reduce
      split at g2 <;> omega) (fun d h' d2 e e1 e2 => ?_) (fun d h' d2 e => ?_)).mono ?_
  · have hs := Dia.slot hA hi d2
    have hg := (g.iff d2 hi).1 e
    simp only [Ok_bind, Ok_rd]
    refine ⟨by omega, ?_⟩
    rw [if_pos e]
    simp only [Ok_bind, Ok_rd, vrdI, vwrI]
    rw [if_pos hg.1]
    simp only [if_pos hg.1, Ok_vrd]
    rw [Ok_vwr]
    exact ⟨by omega, by omega, by omega, by omega, by rw [e2]; rfl⟩
  · simp only [Ok_bind, Ok_rd]
    refine ⟨by omega, ?_⟩
    rw [if_neg e, Ok_pure]
  · rintro h' ⟨a1, a2⟩
    exact ⟨a1, fun a ha => by rw [a2, Dia.starEntry g hi ha]⟩

/-- **C70 (conjugate transpose, LOWER).** `(D+U)ᴴ x = b`. -/
theorem solvehLowerDia_spec {A : SplitDia R} (hA : A.WF) (hs : A.Strict) {wd : Arr R} (hw : A.n ≤ wd.size) {b x : ℕ}
    {h : Vecs R} (hbn : (h b).n = A.n) (hxn : (h x).n = A.n) (hb : h.WF b) (hx : h.WF x) {D : ℕ → R}
    (hwd : ∀ i, i < A.n → D i * wd.get i = 1) :
    Ok (solvehLowerDia star A wd b x h) fun h' => OnlyChanged h x A.n h' ∧
      SolvesTriH A.n D A.U.entry (h'.el x) (h.el b) := by
  unfold solvehLowerDia
  rw [Ok_bind]
  refine (copyStart hbn hxn hb hx).mono ?_
  rintro ⟨e, h1⟩ ⟨o1, s1, f1⟩
  simp only at o1 s1 f1
  refine (scatterUp (x := x) (E := A.U.entry) (fun i j _ hij => hs.upE hij) hwd
    fun i h' hi hc => ?_).mono fun h2 ⟨c2, f2⟩ => ⟨o1.trans c2, f2.rhs f1⟩
  have s2 := other_size hc x
  refine storeRow (g := fun _ h => scatterDiaX star true A.n A.U x i h) hw hi (hs.upE le_rfl)
    (by omega) fun t h3 ht e3 => ?_
  subst e3
  refine (scatterDiaX_spec hA.un hA.uwf hs.gu hi ((OnlyChanged.refl h' x A.n).upd hi t)
    (by simp [Vecs.upd]; omega)).mono ?_
  rintro h4 ⟨a1, a2⟩
  refine ⟨a1, fun a ha => ?_⟩
  rw [a2 a ha, upd_get h' x i t i, if_pos rfl]

/-- **C70 (conjugate transpose, UPPER).** `(D+L)ᴴ x = b`. -/
theorem solvehUpperDia_spec {A : SplitDia R} (hA : A.WF) (hs : A.Strict) {wd : Arr R} (hw : A.n ≤ wd.size) {b x : ℕ}
    {h : Vecs R} (hbn : (h b).n = A.n) (hxn : (h x).n = A.n) (hb : h.WF b) (hx : h.WF x) {D : ℕ → R}
    (hwd : ∀ i, i < A.n → D i * wd.get i = 1) :
    Ok (solvehUpperDia star A wd b x h) fun h' => OnlyChanged h x A.n h' ∧
      SolvesTriH A.n D A.L.entry (h'.el x) (h.el b) := by
  unfold solvehUpperDia
  rw [Ok_bind]
  refine (copyStart hbn hxn hb hx).mono ?_
  rintro ⟨e, h1⟩ ⟨o1, s1, f1⟩
  simp only at o1 s1 f1
  refine (scatterDown (x := x) (E := A.L.entry) (fun i j _ hij => hs.lowE hij) hwd
    fun i h' hi hc => ?_).mono fun h2 ⟨c2, f2⟩ => ⟨o1.trans c2, f2.rhs f1⟩
  have s2 := other_size hc x
  refine storeRow (g := fun _ h => scatterDiaX star false A.n A.L x i h) hw hi (hs.lowE le_rfl)
    (by omega) fun t h3 ht e3 => ?_
  subst e3
  refine (scatterDiaX_spec hA.ln hA.lwf hs.gl hi ((OnlyChanged.refl h' x A.n).upd hi t)
    (by simp [Vecs.upd]; omega)).mono ?_
  rintro h4 ⟨a1, a2⟩
  refine ⟨a1, fun a ha => ?_⟩
  rw [a2 a ha, upd_get h' x i t i, if_pos rfl]

/-- **C70 (conjugate transpose, SSOR).** `((D+L) D⁻¹ (D+U))ᴴ x = b`. -/
theorem solvehSsorDia_spec {A : SplitDia R} (hA : A.WF) (hs : A.Strict) {wd : Arr R} (hw : A.n ≤ wd.size) {b x : ℕ}
    {h : Vecs R} (hbn : (h b).n = A.n) (hxn : (h x).n = A.n) (hb : h.WF b) (hx : h.WF x) {D : ℕ → R}
    (hwd : ∀ i, i < A.n → D i * wd.get i = 1) :
    Ok (solvehSsorDia star A wd b x h) fun h' => OnlyChanged h x A.n h' ∧
      SolvesSsorH A.n D A.L.entry A.U.entry (h'.el x) (h.el b) := by
  unfold solvehSsorDia
  rw [Ok_bind]
  refine (copyStart hbn hxn hb hx).mono ?_
  rintro ⟨e, h1⟩ ⟨o1, s1, f1⟩
  simp only at o1 s1 f1
  rw [Ok_bind]
  refine (scatterHalf (x := x) (E := A.U.entry) (fun i j _ hij => hs.upE hij) hwd
    fun i h' hi hc => ?_).mono ?_
  · have s2 := other_size hc x
    exact halfRow (g := fun t h => scatterDiaT star true A.n A.U x i t h) hw hi (by omega)
      fun t => scatterDiaT_spec hA.un hA.uwf hs.gu hi (OnlyChanged.refl _ _ _) (by omega) t
  rintro h2 ⟨c2, y, f2, g2⟩
  have s2 := other_size c2 x
  refine (scatterDown (x := x) (E := A.L.entry) (fun i j _ hij => hs.lowE hij) hwd
    fun i h' hi hc => ?_).mono fun h3 ⟨c3, f3⟩ => ⟨(o1.trans c2).trans c3, y, f2.rhs f1, f3.rhs g2⟩
  have s3 := other_size hc x
  refine storeRow (g := fun t h => scatterDiaT star false A.n A.L x i t h) hw hi (hs.lowE le_rfl)
    (by omega) fun t h3 _ e3 => ?_
  subst e3
  exact scatterDiaT_spec hA.ln hA.lwf hs.gl hi ((OnlyChanged.refl h' x A.n).upd hi t) (by simp [Vecs.upd]; omega) t

end scatter

/-- the matrix of the other examples: `2 1 0 / 3 1 4 / 0 5 -1`; the element outside the matrix in each diagonal is junk -/
def exSDia : SplitDia ℚ where
  n := 3
  D := .ofList [2, 1, -1]
  L := ⟨3, 1, .ofList [-1], .ofList [88, 3, 5]⟩
  U := ⟨3, 1, .ofList [1], .ofList [1, 4, 88]⟩

example : exSDia.WF := ⟨by decide, rfl, rfl, ⟨by decide, by decide⟩, ⟨by decide, by decide⟩⟩
example : exSDia.Strict := ⟨by decide, by decide⟩
/-- two vectors of length 3 -/
def exSV (b : List ℚ) : Vecs ℚ := fun w => if w = 0 then ⟨3, .ofList b⟩ else ⟨3, .ofList [7, 7, 7]⟩
def exSW : Arr ℚ := .ofList [1 / 2, 1, -1]
example : ∀ i, i < 3 → exSDia.D.get i * exSW.get i = 1 := by
  intro i hi
  interval_cases i <;> decide +kernel
example : (solveLowerDia exSDia exSW 0 1 (exSV [2, 4, 4])).map (fun h => (h 1).value.toList) = some [1, 1, 1] := by
  decide +kernel
example : (solveUpperDia exSDia exSW 0 1 (exSV [3, 5, -1])).map (fun h => (h 1).value.toList) = some [1, 1, 1] := by
  decide +kernel
example : (solvehLowerDia star exSDia exSW 0 1 (exSV [2, 2, 3])).map (fun h => (h 1).value.toList) = some [1, 1, 1] := by
  decide +kernel
example : (solvehUpperDia star exSDia exSW 0 1 (exSV [5, 6, -1])).map (fun h => (h 1).value.toList) = some [1, 1, 1] := by
  decide +kernel
example : (solveSsorDia exSDia exSW 0 1 (exSV [3, 9, 24])).isSome ∧ (solvehSsorDia star exSDia exSW 0 1 (exSV [3, 9, 24])).isSome := by
  decide +kernel

end Lis
