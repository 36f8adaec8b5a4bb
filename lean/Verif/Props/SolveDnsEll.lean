import Verif.Props.TriSweep
import Verif.Model.SolveDnsEll

/-!
# C69: triangular solves with DNS and split ELL matrices
-/

namespace Lis
open Finset
variable {R : Type}

section dns
variable [CommRing R]

/-- the strictly lower triangle -/
def Dns.lower (A : Dns R) (i j : ℕ) : R := if j < i then A.entry i j else 0

/-- the strictly upper triangle -/
def Dns.upper (A : Dns R) (i j : ℕ) : R := if i < j then A.entry i j else 0

theorem Dns.slot {A : Dns R} (hA : A.WF) (hnp : A.np = A.n) {i j : ℕ} (hi : i < A.n) (hj : j < A.n) :
    j * A.n + i < A.value.size := by
  have h1 := hA.vsz
  have h2 := Nat.mul_le_mul_right A.n (show j + 1 ≤ A.n from hj)
  rw [Nat.add_mul, Nat.one_mul] at h2
  rw [hnp] at h1
  omega

theorem Dns.dotRow_lower (A : Dns R) {i : ℕ} (hi : i < A.n) (u : ℕ → R) :
    ∑ j ∈ Ico 0 i, A.entry i j * u j = dotRow A.n A.lower i u := by
  unfold dotRow Dns.lower
  simp_rw [ite_mul, zero_mul]
  rw [← sum_filter]
  refine sum_congr (Finset.ext fun j => ?_) fun _ _ => rfl
  simp only [mem_Ico, mem_filter, mem_range]; omega

theorem Dns.dotRow_upper (A : Dns R) {i : ℕ} (u : ℕ → R) :
    ∑ j ∈ Ico (i + 1) A.n, A.entry i j * u j = dotRow A.n A.upper i u := by
  unfold dotRow Dns.upper
  simp_rw [ite_mul, zero_mul]
  rw [← sum_filter]
  refine sum_congr (Finset.ext fun j => ?_) fun _ _ => rfl
  simp only [mem_Ico, mem_filter, mem_range]; omega

theorem solveRowDns_spec {A : Dns R} (hA : A.WF) (hnp : A.np = A.n) {wd : Arr R} (hw : A.n ≤ wd.size) {b x lo hi i : ℕ}
    (hi' : i < A.n) (hh : hi ≤ A.n) {h : Vecs R} (hb : A.n ≤ (h b).value.size) (hx : A.n ≤ (h x).value.size) :
    Ok (solveRowDns A wd b x lo hi i h) fun h' =>
      h' = h.upd x i (((h b).value.get i - ∑ j ∈ Ico lo hi, A.entry i j * (h x).value.get j) * wd.get i) := by
  unfold solveRowDns
  simp only [Ok_bind, Ok_vrd]
  refine ⟨by omega, ?_⟩
  refine Ok_loop_sum' (fun j => - (A.entry i j * (h x).value.get j)) (fun j t _ j2 => ?_) ?_
  · have := Dns.slot hA hnp hi' (show j < A.n by omega)
    simp only [Ok_bind, Ok_rd, Ok_vrd, Ok_pure]
    exact ⟨this, by omega, by rw [sub_eq_add_neg]; rfl⟩
  · simp only [Ok_rd, Ok_vwr]
    exact ⟨by omega, by omega, by rw [sum_neg_distrib, ← sub_eq_add_neg]; rfl⟩

/-- **C69 (DNS, LOWER).** `(D+L) x = b`. -/
theorem solveLowerDns_spec {A : Dns R} (hA : A.WF) (hnp : A.np = A.n) {wd : Arr R} (hw : A.n ≤ wd.size) {b x : ℕ}
    {h : Vecs R} (hb : A.n ≤ (h b).value.size) (hx : A.n ≤ (h x).value.size) {D : ℕ → R}
    (hwd : ∀ i, i < A.n → D i * wd.get i = 1) :
    Ok (solveLowerDns A wd b x h) fun h' => OnlyChanged h x A.n h' ∧ SolvesTri A.n D A.lower (h'.el x) (h.el b) := by
  refine gatherUp (fun i j _ _ hij => by unfold Dns.lower; rw [if_neg (by omega)]) hwd fun i h' hi hc => ?_
  have s1 := other_size hc b
  have s2 := other_size hc x
  refine (solveRowDns_spec hA hnp hw hi (by omega) (by omega) (by omega)).mono ?_
  rintro _ rfl
  rw [A.dotRow_lower hi]

/-- **C69 (DNS, UPPER).** `(D+U) x = b`. -/
theorem solveUpperDns_spec {A : Dns R} (hA : A.WF) (hnp : A.np = A.n) {wd : Arr R} (hw : A.n ≤ wd.size) {b x : ℕ}
    {h : Vecs R} (hb : A.n ≤ (h b).value.size) (hx : A.n ≤ (h x).value.size) {D : ℕ → R}
    (hwd : ∀ i, i < A.n → D i * wd.get i = 1) :
    Ok (solveUpperDns A wd b x h) fun h' => OnlyChanged h x A.n h' ∧ SolvesTri A.n D A.upper (h'.el x) (h.el b) := by
  refine gatherDown (fun i j _ _ hij => by unfold Dns.upper; rw [if_neg (by omega)]) hwd fun i h' hi hc => ?_
  have s1 := other_size hc b
  have s2 := other_size hc x
  refine (solveRowDns_spec hA hnp hw hi (by omega) (by omega) (by omega)).mono ?_
  rintro _ rfl
  rw [hnp, A.dotRow_upper]

/-- **C69 (DNS, SSOR).** `(D+L) D⁻¹ (D+U) x = b`. -/
theorem solveSsorDns_spec {A : Dns R} (hA : A.WF) (hnp : A.np = A.n) {wd : Arr R} (hw : A.n ≤ wd.size) {b x : ℕ}
    {h : Vecs R} (hb : A.n ≤ (h b).value.size) (hx : A.n ≤ (h x).value.size) {D : ℕ → R}
    (hwd : ∀ i, i < A.n → D i * wd.get i = 1) :
    Ok (solveSsorDns A wd b x h) fun h' => OnlyChanged h x A.n h' ∧
      SolvesSsor A.n D A.lower A.upper (h'.el x) (h.el b) := by
  unfold solveSsorDns
  rw [Ok_bind]
  refine (solveLowerDns_spec hA hnp hw hb hx hwd).mono ?_
  rintro h1 ⟨c1, f1⟩
  have s1 := other_size c1 x
  refine (gatherSsor (x := x) (E := A.upper) (fun i j _ _ hij => by unfold Dns.upper; rw [if_neg (by omega)]) hwd
    fun i h' hi hc => ?_).mono fun h2 ⟨c2, f2⟩ => ⟨c1.trans c2, _, f1, f2⟩
  have s2 := other_size hc x
  rw [Ok_bind]
  refine Ok_loop_sum' (fun j => A.entry i j * (h' x).value.get j) (fun j t _ j2 => ?_) ?_
  · have := Dns.slot hA hnp hi j2
    simp only [Ok_bind, Ok_rd, Ok_vrd, Ok_pure]
    exact ⟨this, by omega, rfl⟩
  · simp only [Ok_bind, Ok_vrd, Ok_rd, Ok_vwr]
    exact ⟨by omega, by omega, by omega, by rw [zero_add, A.dotRow_upper]; rfl⟩

end dns

section dnsh
variable [CommRing R] [StarRing R]

theorem sum_slot_dns (A : Dns R) (lo hi i a : ℕ) :
    (∑ k ∈ Ico lo hi, if k = a then star (A.entry i k) else 0) = if lo ≤ a ∧ a < hi then star (A.entry i a) else 0 := by
  rw [sum_ite_eq']
  simp only [mem_Ico]

theorem scatterDnsT_spec {A : Dns R} (hA : A.WF) (hnp : A.np = A.n) {x lo hi i : ℕ} (hi' : i < A.n) (hlh : lo ≤ hi)
    (hh : hi ≤ A.n) (hself : ∀ k, lo ≤ k → k < hi → k ≠ i) {h0 h : Vecs R} (hc : OnlyChanged h0 x A.n h)
    (hx : A.n ≤ (h x).value.size) (t : R) :
    Ok (scatterDnsT star A x lo hi i t h) fun h' => OnlyChanged h0 x A.n h' ∧
      ∀ a, (h' x).value.get a = (h x).value.get a - (if lo ≤ a ∧ a < hi then star (A.entry i a) else 0) * t := by
  unfold scatterDnsT
  refine (scatterSlots (i := i) (c := fun k => k) (w := fun k => star (A.entry i k)) (T := t) hlh hc
    (fun k _ k2 => by omega) (fun k k1 k2 e => absurd e (hself k k1 k2)) fun k h' k1 k2 e1 e2 => ?_).mono ?_
  · have := Dns.slot hA hnp hi' (show k < A.n by omega)
    simp only [Ok_bind, Ok_rd, Ok_vrd]
    rw [Ok_vwr]
    exact ⟨by omega, this, by omega, rfl⟩
  · rintro h' ⟨a1, a2⟩
    exact ⟨a1, fun a => by rw [a2, sum_slot_dns]⟩

theorem scatterDnsX_spec {A : Dns R} (hA : A.WF) (hnp : A.np = A.n) {x lo hi i : ℕ} (hi' : i < A.n) (hlh : lo ≤ hi)
    (hh : hi ≤ A.n) (hself : ∀ k, lo ≤ k → k < hi → k ≠ i) {h0 h : Vecs R} (hc : OnlyChanged h0 x A.n h)
    (hx : A.n ≤ (h x).value.size) :
    Ok (scatterDnsX star A x lo hi i h) fun h' => OnlyChanged h0 x A.n h' ∧
      ∀ a, (h' x).value.get a = (h x).value.get a -
        (if lo ≤ a ∧ a < hi then star (A.entry i a) else 0) * (h x).value.get i := by
  unfold scatterDnsX
  refine (scatterSlots (i := i) (c := fun k => k) (w := fun k => star (A.entry i k)) (T := (h x).value.get i) hlh hc
    (fun k _ k2 => by omega) (fun k k1 k2 e => absurd e (hself k k1 k2)) fun k h' k1 k2 e1 e2 => ?_).mono ?_
  · have := Dns.slot hA hnp hi' (show k < A.n by omega)
    simp only [Ok_bind, Ok_rd, Ok_vrd]
    rw [Ok_vwr]
    exact ⟨by omega, this, by omega, by omega, by rw [e2]; rfl⟩
  · rintro h' ⟨a1, a2⟩
    exact ⟨a1, fun a => by rw [a2, sum_slot_dns]⟩

/-- a row that stores `t` first, then scatters -/
theorem storeRow {n x i : ℕ} {E : ℕ → ℕ → R} {wd : Arr R} (hw : n ≤ wd.size) (hi : i < n) (hself : E i i = 0)
    {h : Vecs R} (hx : n ≤ (h x).value.size) {g : R → Vecs R → Option (Vecs R)}
    (hg : ∀ t h1, t = (h x).value.get i * star (wd.get i) → h1 = h.upd x i t →
      Ok (g t h1) fun h' => OnlyChanged h x n h' ∧ ∀ a, a < n → (h' x).value.get a = (h1 x).value.get a - star (E i a) * t) :
    Ok (do
      let xi ← vrd h x i
      let w ← wd.rd i
      let h1 ← vwr h x i (xi * star w)
      g (xi * star w) h1) (RowH n 1 true E wd x i h) := by
  simp only [Ok_bind, Ok_vrd, Ok_rd]
  rw [Ok_vwr]
  refine ⟨by omega, by omega, by omega, ?_⟩
  refine (hg _ _ rfl rfl).mono ?_
  rintro h' ⟨a1, a2⟩
  refine rowH_one a1 fun a ha => ?_
  rw [a2 a ha, upd_get]
  simp only [and_true]

/-- a row that only scatters -/
theorem halfRow {n x i : ℕ} {E : ℕ → ℕ → R} {wd : Arr R} (hw : n ≤ wd.size) (hi : i < n)
    {h : Vecs R} (hx : n ≤ (h x).value.size) {g : R → Vecs R → Option (Vecs R)}
    (hg : ∀ t, Ok (g t h) fun h' => OnlyChanged h x n h' ∧
      ∀ a, a < n → (h' x).value.get a = (h x).value.get a - star (E i a) * t) :
    Ok (do
      let xi ← vrd h x i
      let w ← wd.rd i
      g (xi * star w) h) (RowH n 1 false E wd x i h) := by
  simp only [Ok_bind, Ok_vrd, Ok_rd]
  refine ⟨by omega, by omega, ?_⟩
  refine (hg _).mono ?_
  rintro h' ⟨a1, a2⟩
  refine rowH_one a1 fun a ha => ?_
  rw [a2 a ha]
  simp

/-- `lis_vector_copy(B,X)` as the start of a solve of order `n` -/
theorem copyStart {n b x : ℕ} {h : Vecs R} (hbn : (h b).n = n) (hxn : (h x).n = n) (hb : h.WF b) (hx : h.WF x) :
    Ok (vectorCopy b x h) fun r => OnlyChanged h x n r.2 ∧ n ≤ (r.2 x).value.size ∧
      ∀ i, i < n → r.2.el x i = h.el b i := by
  refine (vectorCopy_spec h b x hb hx (by omega)).mono ?_
  rintro ⟨e, h1⟩ ⟨-, a⟩
  simp only at a
  refine ⟨hxn ▸ a.only, by simp only; rw [a.size, ← hxn]; exact hx, fun i hi => ?_⟩
  simp only [Vecs.el]; rw [a.get, if_pos (by omega)]; rfl

theorem SolvesTriH.rhs {n : ℕ} {D : ℕ → R} {a : ℕ → ℕ → R} {x b c : ℕ → R} (h : SolvesTriH n D a x b)
    (e : ∀ i, i < n → b i = c i) : SolvesTriH n D a x c := fun i hi => by rw [h i hi, e i hi]

theorem dnsUpperRow {A : Dns R} (hA : A.WF) (hnp : A.np = A.n) {x i : ℕ} (hi : i < A.n) {h h1 : Vecs R}
    (hx : A.n ≤ (h1 x).value.size) (hc : OnlyChanged h x A.n h1) (t : R) :
    Ok (scatterDnsT star A x (i + 1) A.np i t h1) fun h' => OnlyChanged h x A.n h' ∧
      ∀ a, a < A.n → (h' x).value.get a = (h1 x).value.get a - star (A.upper i a) * t := by
  refine (scatterDnsT_spec hA hnp hi (by omega) (by omega) (fun k k1 _ => by omega) hc hx t).mono ?_
  rintro h' ⟨a1, a2⟩
  refine ⟨a1, fun a ha => ?_⟩
  rw [a2]; unfold Dns.upper
  by_cases hia : i < a
  · rw [if_pos ⟨hia, by omega⟩, if_pos hia]
  · rw [if_neg (fun hh => hia hh.1), if_neg hia, star_zero]

theorem dnsLowerRow {A : Dns R} (hA : A.WF) (hnp : A.np = A.n) {x i : ℕ} (hi : i < A.n) {h h1 : Vecs R}
    (hx : A.n ≤ (h1 x).value.size) (hc : OnlyChanged h x A.n h1) (t : R) :
    Ok (scatterDnsT star A x 0 i i t h1) fun h' => OnlyChanged h x A.n h' ∧
      ∀ a, a < A.n → (h' x).value.get a = (h1 x).value.get a - star (A.lower i a) * t := by
  refine (scatterDnsT_spec hA hnp hi (by omega) (by omega) (fun k _ k2 => by omega) hc hx t).mono ?_
  rintro h' ⟨a1, a2⟩
  refine ⟨a1, fun a _ => ?_⟩
  rw [a2]; unfold Dns.lower
  by_cases hia : a < i
  · rw [if_pos ⟨Nat.zero_le _, hia⟩, if_pos hia]
  · rw [if_neg (fun hh => hia hh.2), if_neg hia, star_zero]

/-- **C69 (DNS, conjugate transpose, LOWER).** `(D+U)ᴴ x = b`. -/
theorem solvehLowerDns_spec {A : Dns R} (hA : A.WF) (hnp : A.np = A.n) {wd : Arr R} (hw : A.n ≤ wd.size) {b x : ℕ}
    {h : Vecs R} (hbn : (h b).n = A.n) (hxn : (h x).n = A.n) (hb : h.WF b) (hx : h.WF x) {D : ℕ → R}
    (hwd : ∀ i, i < A.n → D i * wd.get i = 1) :
    Ok (solvehLowerDns star A wd b x h) fun h' => OnlyChanged h x A.n h' ∧
      SolvesTriH A.n D A.upper (h'.el x) (h.el b) := by
  unfold solvehLowerDns
  rw [Ok_bind]
  refine (copyStart hbn hxn hb hx).mono ?_
  rintro ⟨e, h1⟩ ⟨o1, s1, f1⟩
  simp only at o1 s1 f1
  refine (scatterUp (x := x) (E := A.upper) (fun i j _ hij => by unfold Dns.upper; rw [if_neg (by omega)]) hwd
    fun i h' hi hc => ?_).mono fun h2 ⟨c2, f2⟩ => ⟨o1.trans c2, f2.rhs f1⟩
  have s2 := other_size hc x
  refine storeRow (g := fun _ h => scatterDnsX star A x (i + 1) A.np i h) hw hi (by unfold Dns.upper; rw [if_neg (by omega)])
    (by omega) fun t h3 ht e3 => ?_
  subst e3
  have hc3 := (OnlyChanged.refl h' x A.n).upd hi t
  refine (scatterDnsX_spec hA hnp hi (by omega) (by omega) (fun k k1 _ => by omega) hc3 (by simp [Vecs.upd]; omega)).mono ?_
  rintro h4 ⟨a1, a2⟩
  refine ⟨a1, fun a ha => ?_⟩
  rw [a2, upd_get h' x i t i, if_pos rfl]; unfold Dns.upper
  by_cases hia : i < a
  · rw [if_pos ⟨hia, by omega⟩, if_pos hia]
  · rw [if_neg (fun hh => hia hh.1), if_neg hia, star_zero]

/-- **C69 (DNS, conjugate transpose, UPPER).** `(D+L)ᴴ x = b`. -/
theorem solvehUpperDns_spec {A : Dns R} (hA : A.WF) (hnp : A.np = A.n) {wd : Arr R} (hw : A.n ≤ wd.size) {b x : ℕ}
    {h : Vecs R} (hbn : (h b).n = A.n) (hxn : (h x).n = A.n) (hb : h.WF b) (hx : h.WF x) {D : ℕ → R}
    (hwd : ∀ i, i < A.n → D i * wd.get i = 1) :
    Ok (solvehUpperDns star A wd b x h) fun h' => OnlyChanged h x A.n h' ∧
      SolvesTriH A.n D A.lower (h'.el x) (h.el b) := by
  unfold solvehUpperDns
  rw [Ok_bind]
  refine (copyStart hbn hxn hb hx).mono ?_
  rintro ⟨e, h1⟩ ⟨o1, s1, f1⟩
  simp only at o1 s1 f1
  refine (scatterDown (x := x) (E := A.lower) (fun i j _ hij => by unfold Dns.lower; rw [if_neg (by omega)]) hwd
    fun i h' hi hc => ?_).mono fun h2 ⟨c2, f2⟩ => ⟨o1.trans c2, f2.rhs f1⟩
  have s2 := other_size hc x
  refine storeRow (g := fun _ h => scatterDnsX star A x 0 i i h) hw hi (by unfold Dns.lower; rw [if_neg (by omega)])
    (by omega) fun t h3 ht e3 => ?_
  subst e3
  have hc3 := (OnlyChanged.refl h' x A.n).upd hi t
  refine (scatterDnsX_spec hA hnp hi (by omega) (by omega) (fun k _ k2 => by omega) hc3 (by simp [Vecs.upd]; omega)).mono ?_
  rintro h4 ⟨a1, a2⟩
  refine ⟨a1, fun a ha => ?_⟩
  rw [a2, upd_get h' x i t i, if_pos rfl]; unfold Dns.lower
  by_cases hia : a < i
  · rw [if_pos ⟨Nat.zero_le _, hia⟩, if_pos hia]
  · rw [if_neg (fun hh => hia hh.2), if_neg hia, star_zero]

/-- **C69 (DNS, conjugate transpose, SSOR).** `((D+L) D⁻¹ (D+U))ᴴ x = b`. -/
theorem solvehSsorDns_spec {A : Dns R} (hA : A.WF) (hnp : A.np = A.n) {wd : Arr R} (hw : A.n ≤ wd.size) {b x : ℕ}
    {h : Vecs R} (hbn : (h b).n = A.n) (hxn : (h x).n = A.n) (hb : h.WF b) (hx : h.WF x) {D : ℕ → R}
    (hwd : ∀ i, i < A.n → D i * wd.get i = 1) :
    Ok (solvehSsorDns star A wd b x h) fun h' => OnlyChanged h x A.n h' ∧
      SolvesSsorH A.n D A.lower A.upper (h'.el x) (h.el b) := by
  unfold solvehSsorDns
  rw [Ok_bind]
  refine (copyStart hbn hxn hb hx).mono ?_
  rintro ⟨e, h1⟩ ⟨o1, s1, f1⟩
  simp only at o1 s1 f1
  rw [Ok_bind]
  refine (scatterHalf (x := x) (E := A.upper) (fun i j _ hij => by unfold Dns.upper; rw [if_neg (by omega)]) hwd
    fun i h' hi hc => ?_).mono ?_
  · have s2 := other_size hc x
    exact halfRow (g := fun t h => scatterDnsT star A x (i + 1) A.np i t h) hw hi (by omega)
      fun t => dnsUpperRow hA hnp hi (by omega) (OnlyChanged.refl _ _ _) t
  rintro h2 ⟨c2, y, f2, g2⟩
  have s2 := other_size c2 x
  refine (scatterDown (x := x) (E := A.lower) (fun i j _ hij => by unfold Dns.lower; rw [if_neg (by omega)]) hwd
    fun i h' hi hc => ?_).mono fun h3 ⟨c3, f3⟩ => ⟨(o1.trans c2).trans c3, y, f2.rhs f1, f3.rhs g2⟩
  have s3 := other_size hc x
  refine storeRow (g := fun t h => scatterDnsT star A x 0 i i t h) hw hi (by unfold Dns.lower; rw [if_neg (by omega)])
    (by omega) fun t h3 _ e3 => ?_
  subst e3
  exact dnsLowerRow hA hnp hi (by simp [Vecs.upd]; omega) ((OnlyChanged.refl h' x A.n).upd hi t) t

end dnsh

/-! ### ELL -/

/-- every slot of `L` left of the diagonal and every slot of `U` right of it, except unused slots (value 0, any column) -/
structure SplitEll.Strict [Zero R] (A : SplitEll R) : Prop where
  low : ∀ i, i < A.n → ∀ k, k < A.L.maxnzr → A.L.index.get (k * A.n + i) < i ∨ A.L.value.get (k * A.n + i) = 0
  up : ∀ i, i < A.n → ∀ k, k < A.U.maxnzr → i < A.U.index.get (k * A.n + i) ∨ A.U.value.get (k * A.n + i) = 0

section ell
variable [CommRing R]

theorem SplitEll.Strict.lowE {A : SplitEll R} (hA : A.WF) (hs : A.Strict) {i j : ℕ} (hi : i < A.n) (hij : i ≤ j) :
    A.L.entry i j = 0 := by
  unfold Ell.entry
  refine sum_eq_zero fun k hk => ?_
  rw [mem_range] at hk
  rw [hA.ln]
  split
  · next e => rcases hs.low i hi k hk with h | h
              · omega
              · exact h
  · rfl

theorem SplitEll.Strict.upE {A : SplitEll R} (hA : A.WF) (hs : A.Strict) {i j : ℕ} (hi : i < A.n) (hij : j ≤ i) :
    A.U.entry i j = 0 := by
  unfold Ell.entry
  refine sum_eq_zero fun k hk => ?_
  rw [mem_range] at hk
  rw [hA.un]
  split
  · next e => rcases hs.up i hi k hk with h | h
              · omega
              · exact h
  · rfl

theorem Ell.slot {A : Ell R} {i k : ℕ} (hi : i < A.n) (hk : k < A.maxnzr) : k * A.n + i < A.n * A.maxnzr := by
  have h2 := Nat.mul_le_mul_right A.n (show k + 1 ≤ A.maxnzr from hk)
  rw [Nat.add_mul, Nat.one_mul, Nat.mul_comm A.maxnzr] at h2
  omega

theorem Ell.dotRow {A : Ell R} (h : A.WF) {i : ℕ} (hi : i < A.n) (u : ℕ → R) :
    ∑ k ∈ Ico 0 A.maxnzr, A.value.get (k * A.n + i) * u (A.index.get (k * A.n + i)) = dotRow A.n A.entry i u := by
  unfold Lis.dotRow Ell.entry
  rw [← range_eq_Ico]
  exact sum_by_col fun k hk => h.idx k (mem_range.1 hk) i hi

theorem solveRowEll_spec {n : ℕ} {A : Ell R} (hn : A.n = n) (hA : A.WF) {wd : Arr R} (hw : n ≤ wd.size) {b x i : ℕ}
    (hi : i < n) {h : Vecs R} (hb : n ≤ (h b).value.size) (hx : n ≤ (h x).value.size) :
    Ok (solveRowEll n A wd b x i h) fun h' =>
      h' = h.upd x i (((h b).value.get i - dotRow n A.entry i (h x).value.get) * wd.get i) := by
  subst hn
  have his := hA.isz
  have hvs := hA.vsz
  unfold solveRowEll
  simp only [Ok_bind, Ok_vrd]
  refine ⟨by omega, ?_⟩
  refine Ok_loop_sum' (fun k => - (A.value.get (k * A.n + i) * (h x).value.get (A.index.get (k * A.n + i)))) (fun k t _ k2 => ?_) ?_
  · have := Ell.slot hi k2
    have hc := hA.idx k k2 i hi
    simp only [Ok_bind, Ok_rd, Ok_vrd, Ok_pure]
    exact ⟨by omega, by omega, by omega, by rw [sub_eq_add_neg]⟩
  · simp only [Ok_rd, Ok_vwr]
    exact ⟨by omega, by omega, by rw [sum_neg_distrib, ← sub_eq_add_neg, Ell.dotRow hA hi]; rfl⟩

/-- **C69 (ELL, LOWER).** `(D+L) x = b`. -/
theorem solveLowerEll_spec {A : SplitEll R} (hA : A.WF) (hs : A.Strict) {wd : Arr R} (hw : A.n ≤ wd.size) {b x : ℕ}
    {h : Vecs R} (hb : A.n ≤ (h b).value.size) (hx : A.n ≤ (h x).value.size) {D : ℕ → R}
    (hwd : ∀ i, i < A.n → D i * wd.get i = 1) :
    Ok (solveLowerEll A wd b x h) fun h' => OnlyChanged h x A.n h' ∧ SolvesTri A.n D A.L.entry (h'.el x) (h.el b) := by
  refine gatherUp (fun i j hi _ hij => hs.lowE hA hi hij) hwd fun i h' hi hc => ?_
  have s1 := other_size hc b
  have s2 := other_size hc x
  exact solveRowEll_spec hA.ln hA.lwf hw hi (by omega) (by omega)

/-- **C69 (ELL, UPPER).** `(D+U) x = b`. -/
theorem solveUpperEll_spec {A : SplitEll R} (hA : A.WF) (hs : A.Strict) {wd : Arr R} (hw : A.n ≤ wd.size) {b x : ℕ}
    {h : Vecs R} (hb : A.n ≤ (h b).value.size) (hx : A.n ≤ (h x).value.size) {D : ℕ → R}
    (hwd : ∀ i, i < A.n → D i * wd.get i = 1) :
    Ok (solveUpperEll A wd b x h) fun h' => OnlyChanged h x A.n h' ∧ SolvesTri A.n D A.U.entry (h'.el x) (h.el b) := by
  refine gatherDown (fun i j hi _ hij => hs.upE hA hi hij) hwd fun i h' hi hc => ?_
  have s1 := other_size hc b
  have s2 := other_size hc x
  exact solveRowEll_spec hA.un hA.uwf hw hi (by omega) (by omega)

/-- **C69 (ELL, SSOR).** `(D+L) D⁻¹ (D+U) x = b`. -/
theorem solveSsorEll_spec {A : SplitEll R} (hA : A.WF) (hs : A.Strict) {wd : Arr R} (hw : A.n ≤ wd.size) {b x : ℕ}
    {h : Vecs R} (hb : A.n ≤ (h b).value.size) (hx : A.n ≤ (h x).value.size) {D : ℕ → R}
    (hwd : ∀ i, i < A.n → D i * wd.get i = 1) :
    Ok (solveSsorEll A wd b x h) fun h' => OnlyChanged h x A.n h' ∧
      SolvesSsor A.n D A.L.entry A.U.entry (h'.el x) (h.el b) := by
  have hun := hA.un
  have his := hA.uwf.isz
  have hvs := hA.uwf.vsz
  unfold solveSsorEll
  rw [Ok_bind]
  refine (solveLowerEll_spec hA hs hw hb hx hwd).mono ?_
  rintro h1 ⟨c1, f1⟩
  have s1 := other_size c1 x
  refine (gatherSsor (x := x) (E := A.U.entry) (fun i j hi _ hij => hs.upE hA hi hij) hwd
    fun i h' hi hc => ?_).mono fun h2 ⟨c2, f2⟩ => ⟨c1.trans c2, _, f1, f2⟩
  have s2 := other_size hc x
  rw [Ok_bind]
  refine Ok_loop_sum' (fun k => A.U.value.get (k * A.U.n + i) * (h' x).value.get (A.U.index.get (k * A.U.n + i)))
    (fun k t _ k2 => ?_) ?_
  · have := Ell.slot (show i < A.U.n by omega) k2
    have hcx := hA.uwf.idx k k2 i (by omega)
    rw [hun] at this hcx his hvs ⊢
    simp only [Ok_bind, Ok_rd, Ok_ite, Ok_vrd, Ok_pure]
    exact ⟨by omega, fun hge => absurd hge (by omega), fun _ => ⟨by omega, by omega, trivial⟩⟩
  · rw [Ell.dotRow hA.uwf (by omega), hun]
    simp only [Ok_bind, Ok_vrd, Ok_rd, Ok_vwr]
    exact ⟨by omega, by omega, by omega, by rw [zero_add]; rfl⟩

end ell

section ellh
variable [CommRing R] [StarRing R]

theorem Ell.starEntry (A : Ell R) (i a : ℕ) : (∑ k ∈ Ico 0 A.maxnzr,
    if A.index.get (k * A.n + i) = a then star (A.value.get (k * A.n + i)) else 0) = star (A.entry i a) := by
  unfold Ell.entry
  rw [star_sum, ← range_eq_Ico]
  refine sum_congr rfl fun k _ => ?_
  split
  · rfl
  · exact (star_zero R).symm

theorem scatterEllT_spec {n : ℕ} {A : Ell R} (hn : A.n = n) (hA : A.WF) {x i : ℕ} (hi : i < n)
    (hself : ∀ k, k < A.maxnzr → A.index.get (k * n + i) = i → A.value.get (k * n + i) = 0)
    {h0 h : Vecs R} (hc : OnlyChanged h0 x n h) (hx : n ≤ (h x).value.size) (t : R) :
    Ok (scatterEllT star n A x i t h) fun h' => OnlyChanged h0 x n h' ∧
      ∀ a, a < n → (h' x).value.get a = (h x).value.get a - star (A.entry i a) * t := by
  subst hn
  have his := hA.isz
  have hvs := hA.vsz
  unfold scatterEllT
  refine (scatterSlots (i := i) (c := fun k => A.index.get (k * A.n + i)) (w := fun k => star (A.value.get (k * A.n + i)))
    (T := t) (Nat.zero_le _) hc (fun k _ k2 => hA.idx k k2 i hi)
    (fun k _ k2 e => by rw [hself k k2 e, star_zero]) fun k h' _ k2 e1 _ => ?_).mono ?_
  · have := Ell.slot hi k2
    have hcx := hA.idx k k2 i hi
    simp only [Ok_bind, Ok_rd, Ok_vrd]
    rw [Ok_vwr]
    exact ⟨by omega, by omega, by omega, by omega, rfl⟩
  · rintro h' ⟨a1, a2⟩
    exact ⟨a1, fun a _ => by rw [a2, A.starEntry]⟩

theorem scatterEllX_spec {n : ℕ} {A : Ell R} (hn : A.n = n) (hA : A.WF) {x i : ℕ} (hi : i < n)
    (hself : ∀ k, k < A.maxnzr → A.index.get (k * n + i) = i → A.value.get (k * n + i) = 0)
    {h0 h : Vecs R} (hc : OnlyChanged h0 x n h) (hx : n ≤ (h x).value.size) :
    Ok (scatterEllX star n A x i h) fun h' => OnlyChanged h0 x n h' ∧
      ∀ a, a < n → (h' x).value.get a = (h x).value.get a - star (A.entry i a) * (h x).value.get i := by
  subst hn
  have his := hA.isz
  have hvs := hA.vsz
  unfold scatterEllX
  refine (scatterSlots (i := i) (c := fun k => A.index.get (k * A.n + i)) (w := fun k => star (A.value.get (k * A.n + i)))
    (T := (h x).value.get i) (Nat.zero_le _) hc (fun k _ k2 => hA.idx k k2 i hi)
    (fun k _ k2 e => by rw [hself k k2 e, star_zero]) fun k h' _ k2 e1 e2 => ?_).mono ?_
  · have := Ell.slot hi k2
    have hcx := hA.idx k k2 i hi
    simp only [Ok_bind, Ok_rd, Ok_vrd]
    rw [Ok_vwr]
    exact ⟨by omega, by omega, by omega, by omega, by omega, by rw [e2]; rfl⟩
  · rintro h' ⟨a1, a2⟩
    exact ⟨a1, fun a _ => by rw [a2, A.starEntry]⟩

omit [StarRing R] in
theorem SplitEll.Strict.selfL {A : SplitEll R} (hs : A.Strict) {i : ℕ} (hi : i < A.n) :
    ∀ k, k < A.L.maxnzr → A.L.index.get (k * A.n + i) = i → A.L.value.get (k * A.n + i) = 0 := fun k hk e =>
  (hs.low i hi k hk).resolve_left (by omega)

omit [StarRing R] in
theorem SplitEll.Strict.selfU {A : SplitEll R} (hs : A.Strict) {i : ℕ} (hi : i < A.n) :
    ∀ k, k < A.U.maxnzr → A.U.index.get (k * A.n + i) = i → A.U.value.get (k * A.n + i) = 0 := fun k hk e =>
  (hs.up i hi k hk).resolve_left (by omega)

/-- **C69 (ELL, conjugate transpose, LOWER).** `(D+U)ᴴ x = b`. -/
theorem solvehLowerEll_spec {A : SplitEll R} (hA : A.WF) (hs : A.Strict) {wd : Arr R} (hw : A.n ≤ wd.size) {b x : ℕ}
    {h : Vecs R} (hbn : (h b).n = A.n) (hxn : (h x).n = A.n) (hb : h.WF b) (hx : h.WF x) {D : ℕ → R}
    (hwd : ∀ i, i < A.n → D i * wd.get i = 1) :
    Ok (solvehLowerEll star A wd b x h) fun h' => OnlyChanged h x A.n h' ∧
      SolvesTriH A.n D A.U.entry (h'.el x) (h.el b) := by
  unfold solvehLowerEll
  rw [Ok_bind]
  refine (copyStart hbn hxn hb hx).mono ?_
  rintro ⟨e, h1⟩ ⟨o1, s1, f1⟩
  simp only at o1 s1 f1
  refine (scatterUp (x := x) (E := A.U.entry) (fun i j hi hij => hs.upE hA hi hij) hwd
    fun i h' hi hc => ?_).mono fun h2 ⟨c2, f2⟩ => ⟨o1.trans c2, f2.rhs f1⟩
  have s2 := other_size hc x
  refine storeRow (g := fun _ h => scatterEllX star A.n A.U x i h) hw hi (hs.upE hA hi le_rfl)
    (by omega) fun t h3 ht e3 => ?_
  subst e3
  refine (scatterEllX_spec hA.un hA.uwf hi (hs.selfU hi) ((OnlyChanged.refl h' x A.n).upd hi t)
    (by simp [Vecs.upd]; omega)).mono ?_
  rintro h4 ⟨a1, a2⟩
  refine ⟨a1, fun a ha => ?_⟩
  rw [a2 a ha, upd_get h' x i t i, if_pos rfl]

/-- **C69 (ELL, conjugate transpose, UPPER).** `(D+L)ᴴ x = b`. -/
theorem solvehUpperEll_spec {A : SplitEll R} (hA : A.WF) (hs : A.Strict) {wd : Arr R} (hw : A.n ≤ wd.size) {b x : ℕ}
    {h : Vecs R} (hbn : (h b).n = A.n) (hxn : (h x).n = A.n) (hb : h.WF b) (hx : h.WF x) {D : ℕ → R}
    (hwd : ∀ i, i < A.n → D i * wd.get i = 1) :
    Ok (solvehUpperEll star A wd b x h) fun h' => OnlyChanged h x A.n h' ∧
      SolvesTriH A.n D A.L.entry (h'.el x) (h.el b) := by
  unfold solvehUpperEll
  rw [Ok_bind]
  refine (copyStart hbn hxn hb hx).mono ?_
  rintro ⟨e, h1⟩ ⟨o1, s1, f1⟩
  simp only at o1 s1 f1
  refine (scatterDown (x := x) (E := A.L.entry) (fun i j hi hij => hs.lowE hA hi hij) hwd
    fun i h' hi hc => ?_).mono fun h2 ⟨c2, f2⟩ => ⟨o1.trans c2, f2.rhs f1⟩
  have s2 := other_size hc x
  refine storeRow (g := fun _ h => scatterEllX star A.n A.L x i h) hw hi (hs.lowE hA hi le_rfl)
    (by omega) fun t h3 ht e3 => ?_
  subst e3
  refine (scatterEllX_spec hA.ln hA.lwf hi (hs.selfL hi) ((OnlyChanged.refl h' x A.n).upd hi t)
    (by simp [Vecs.upd]; omega)).mono ?_
  rintro h4 ⟨a1, a2⟩
  refine ⟨a1, fun a ha => ?_⟩
  rw [a2 a ha, upd_get h' x i t i, if_pos rfl]

/-- **C69 (ELL, conjugate transpose, SSOR).** `((D+L) D⁻¹ (D+U))ᴴ x = b`. -/
theorem solvehSsorEll_spec {A : SplitEll R} (hA : A.WF) (hs : A.Strict) {wd : Arr R} (hw : A.n ≤ wd.size) {b x : ℕ}
    {h : Vecs R} (hbn : (h b).n = A.n) (hxn : (h x).n = A.n) (hb : h.WF b) (hx : h.WF x) {D : ℕ → R}
    (hwd : ∀ i, i < A.n → D i * wd.get i = 1) :
    Ok (solvehSsorEll star A wd b x h) fun h' => OnlyChanged h x A.n h' ∧
      SolvesSsorH A.n D A.L.entry A.U.entry (h'.el x) (h.el b) := by
  unfold solvehSsorEll
  rw [Ok_bind]
  refine (copyStart hbn hxn hb hx).mono ?_
  rintro ⟨e, h1⟩ ⟨o1, s1, f1⟩
  simp only at o1 s1 f1
  rw [Ok_bind]
  refine (scatterHalf (x := x) (E := A.U.entry) (fun i j hi hij => hs.upE hA hi hij) hwd
    fun i h' hi hc => ?_).mono ?_
  · have s2 := other_size hc x
    exact halfRow (g := fun t h => scatterEllT star A.n A.U x i t h) hw hi (by omega)
      fun t => scatterEllT_spec hA.un hA.uwf hi (hs.selfU hi) (OnlyChanged.refl _ _ _) (by omega) t
  rintro h2 ⟨c2, y, f2, g2⟩
  have s2 := other_size c2 x
  refine (scatterDown (x := x) (E := A.L.entry) (fun i j hi hij => hs.lowE hA hi hij) hwd
    fun i h' hi hc => ?_).mono fun h3 ⟨c3, f3⟩ => ⟨(o1.trans c2).trans c3, y, f2.rhs f1, f3.rhs g2⟩
  have s3 := other_size hc x
  refine storeRow (g := fun t h => scatterEllT star A.n A.L x i t h) hw hi (hs.lowE hA hi le_rfl)
    (by omega) fun t h3 _ e3 => ?_
  subst e3
  exact scatterEllT_spec hA.ln hA.lwf hi (hs.selfL hi) ((OnlyChanged.refl h' x A.n).upd hi t) (by simp [Vecs.upd]; omega) t

end ellh
end Lis
