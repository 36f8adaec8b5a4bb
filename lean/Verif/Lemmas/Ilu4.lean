import Verif.Lemmas.Ilu3

/-! Numerical factorization of ILU(p): rows, whole factorization -/

namespace Lis
open Finset
variable {R : Type} [Field R]

/-- entry of the `L` part of the state -/
def lEnt (P : IluPat) (s : NumSt R) (k c : ℕ) : R :=
  ∑ t ∈ range (P.nnzL.get k), if (P.idxL k).get t = c then (s.Lv k).get t else 0

theorem lEnt_at {n k : ℕ} {P : IluPat} (hP : PatShape n P k) (s : NumSt R) {p : ℕ} (hp : p < P.nnzL.get k) :
    lEnt P s k ((P.idxL k).get p) = (s.Lv k).get p := by
  unfold lEnt
  rw [sum_eq_single p]
  · rw [if_pos rfl]
  · intro t ht hne
    rw [if_neg]
    intro e; exact hne (hP.injL (mem_range.1 ht) hp e)
  · intro h; exact absurd (mem_range.2 hp) h

theorem uEnt_at {n k : ℕ} {P : IluPat} (hP : PatShape n P k) (s : NumSt R) {p : ℕ} (hp : p < P.nnzU.get k) :
    uEnt P s k ((P.idxU k).get p) = (s.Uv k).get p := by
  unfold uEnt
  rw [sum_eq_single p]
  · rw [if_pos rfl]
  · intro t ht hne
    rw [if_neg]
    intro e; exact hne (hP.injU t p (mem_range.1 ht) hp e)
  · intro h; exact absurd (mem_range.2 hp) h

/-- the sum `Σ_{m<k} L(k,m) U(m,c)` -/
def luSum (P : IluPat) (s : NumSt R) (k c : ℕ) : R := ∑ m ∈ range k, lEnt P s k m * uEnt P s m c

/-- the equations of row `k` -/
structure RowEq (A : ℕ → ℕ → R) (P : IluPat) (s : NumSt R) (k : ℕ) : Prop where
  l : ∀ c, InL P k c → lEnt P s k c = (A k c - luSum P s k c) * s.D.get c
  d : s.D.get k = 1 / (A k k - luSum P s k k)
  u : ∀ c, InU P k c → uEnt P s k c = A k c - luSum P s k c

structure NumInv (A : ℕ → ℕ → R) (n : ℕ) (P : IluPat) (i : ℕ) (s : NumSt R) : Prop where
  szL : ∀ k, k < n → (s.Lv k).size = P.nnzL.get k
  szU : ∀ k, k < n → (s.Uv k).size = P.nnzU.get k
  szD : n ≤ s.D.size
  jsz : s.jw.size = n
  clear : ∀ c, c < n → s.jw.get c = none
  rows : ∀ k, k < i → RowEq A P s k

/-- equations of earlier rows survive changes of row `i` only -/
theorem RowEq.frame {A : ℕ → ℕ → R} {n i k : ℕ} {P : IluPat} {s s' : NumSt R} (hk : k < i) (hP : PatShape n P k)
    (oL : ∀ k, k ≠ i → s'.Lv k = s.Lv k) (oD : ∀ k, k ≠ i → s'.D.get k = s.D.get k)
    (oU : ∀ k, k ≠ i → s'.Uv k = s.Uv k) (h : RowEq A P s k) : RowEq A P s' k := by
  have e1 : ∀ m c, m < i → lEnt P s' m c = lEnt P s m c := fun m c hm => by
    unfold lEnt; rw [oL m (by omega)]
  have e2 : ∀ m c, m < i → uEnt P s' m c = uEnt P s m c := fun m c hm => by
    unfold uEnt; rw [oU m (by omega)]
  have e3 : ∀ c, luSum P s' k c = luSum P s k c := fun c => by
    unfold luSum
    refine sum_congr rfl fun m hm => ?_
    rw [mem_range] at hm
    rw [e1 k m hk, e2 m c (by omega)]
  refine ⟨fun c hc => ?_, ?_, fun c hc => ?_⟩
  · have : c < i := by obtain ⟨p, p1, rfl⟩ := hc; have := hP.low p p1; omega
    rw [e1 k c hk, e3, oD c (by omega)]; exact h.l c hc
  · rw [oD k (by omega), e3]; exact h.d
  · rw [e2 k c hk, e3]; exact h.u c hc

theorem numRow_spec {A : Csr R} (hA : A.WF) (hnd : A.NoDup) {P : IluPat} {i : ℕ} (hi : i < A.n)
    (hP : ∀ k, k ≤ i → PatShape A.n P k) (hL : P.nnzL.size = A.n) (hU : P.nnzU.size = A.n)
    (hc : ∀ c, A.Stored i c → c < A.n ∧ InPat P i c) {s : NumSt R}
    (h : NumInv A.entry A.n P i s) : Ok (numRow A P i s) (NumInv A.entry A.n P (i + 1)) := by
  classical
  have hPi := hP i (le_refl _)
  have hD := h.szD
  unfold numRow
  rw [Ok_bind]
  refine (numInit_spec hPi hi hL hU h.szD (h.szL i hi) (h.szU i hi) h.jsz h.clear).mono ?_
  intro s1 r1
  rw [Ok_bind]
  refine (numScatter_spec hA hnd hi hPi hc h.szD r1).mono ?_
  intro s2 r2
  rw [Ok_bind, Ok_rd]
  refine ⟨by omega, ?_⟩
  rw [Ok_bind]
  refine (numElims_spec hP hi hU h.szD (fun k hk => h.szU k (by omega)) r2).mono ?_
  rintro s3 ⟨w, r3, hw⟩
  rw [Ok_bind]
  refine (numUnmark_spec hPi.szL r3.marks.size (fun p hp => by have := hPi.low p hp; omega)).mono ?_
  rintro j1 ⟨a1, a2, a3⟩
  simp only [Ok_bind, Ok_wr, Ok_rd]
  refine ⟨by omega, by omega, ?_⟩
  refine (numUnmark_spec hPi.szU (by rw [Arr.set_size]; exact a1) (fun p hp => (hPi.up p hp).2)).mono ?_
  rintro j2 ⟨b1, b2, b3⟩
  have z3 := r3.szD
  refine ⟨by omega, by omega, ?_⟩
  rw [Ok_pure]
  have oD : ∀ k, k ≠ i → (s3.D.set i (1 / s3.D.get i)).get k = s.D.get k := fun k hk => by
    rw [Arr.set_get_ne _ _ hk]; exact r3.oD k hk
  -- the entries of the new row
  set s' : NumSt R := { s3 with D := s3.D.set i (1 / s3.D.get i), jw := j2 } with hs'
  have eU : ∀ m c, m < i → uEnt P s' m c = uEnt P s m c := fun m c hm => by
    unfold uEnt
    show ∑ t ∈ range (P.nnzU.get m), (if (P.idxU m).get t = c then (s3.Uv m).get t else 0) = _
    rw [r3.oU m (by omega)]
  have eLw : ∀ p, p < P.nnzL.get i → lEnt P s' i ((P.idxL i).get p) = w ((P.idxL i).get p) := fun p hp => by
    rw [lEnt_at hPi s' hp]; exact r3.l p hp
  have eUw : ∀ p, p < P.nnzU.get i → uEnt P s' i ((P.idxU i).get p) = w ((P.idxU i).get p) := fun p hp => by
    rw [uEnt_at hPi s' hp]; exact r3.u p hp
  have eSum : ∀ c, ∑ t ∈ range (P.nnzL.get i), w ((P.idxL i).get t) * uEnt P s ((P.idxL i).get t) c =
      luSum P s' i c := fun c => by
    unfold luSum
    have := sum_by_col (m := i) (S := range (P.nnzL.get i)) (c := (P.idxL i).get) (v := (s3.Lv i).get)
      (x := fun m => uEnt P s m c) (fun k hk => hPi.low k (mem_range.1 hk))
    rw [sum_congr rfl fun t ht => by rw [← r3.l t (mem_range.1 ht)]]
    rw [this]
    refine sum_congr rfl fun m hm => ?_
    rw [eU m c (mem_range.1 hm)]
    rfl
  refine ⟨fun k hk => ?_, fun k hk => ?_, ?_, b1, fun c hcn => ?_, fun k hk => ?_⟩
  · by_cases e : k = i
    · subst e; exact r3.szL
    · show (s3.Lv k).size = _; rw [r3.oL k e]; exact h.szL k hk
  · by_cases e : k = i
    · subst e; exact r3.szU
    · show (s3.Uv k).size = _; rw [r3.oU k e]; exact h.szU k hk
  · show A.n ≤ (s3.D.set i _).size
    rw [Arr.set_size]; omega
  · show j2.get c = none
    by_cases e : InPat P i c
    · rcases e with ⟨p, p1, rfl⟩ | e | ⟨p, p1, rfl⟩
      · refine b3 _ ?_
        have := hPi.low p p1
        rw [Arr.set_get_ne _ _ (by omega)]; exact a2 p p1
      · subst e; refine b3 _ ?_; rw [Arr.set_get_self]
      · exact b2 p p1
    · refine b3 _ ?_
      rw [Arr.set_get_ne _ _ fun e2 => e (.inr (.inl e2))]
      exact a3 c (r3.marks.none c hcn e)
  · by_cases e : k = i
    · subst e
      refine ⟨fun c hcl => ?_, ?_, fun c hcu => ?_⟩
      · obtain ⟨p, p1, rfl⟩ := hcl
        rw [eLw p p1, hw _ (.inl ⟨p, p1, rfl⟩), eSum, if_pos ⟨p, p1, rfl⟩]
        have := hPi.low p p1
        show _ = _ * (s3.D.set k _).get _
        rw [oD _ (by omega)]
      · show (s3.D.set k _).get k = _
        rw [Arr.set_get_self, r3.d, hw k (.inr (.inl rfl)), eSum, if_neg, mul_one]
        rintro ⟨p, p1, p2⟩
        have := hPi.low p p1
        omega
      · obtain ⟨p, p1, rfl⟩ := hcu
        rw [eUw p p1, hw _ (.inr (.inr ⟨p, p1, rfl⟩)), eSum, if_neg, mul_one]
        rintro ⟨q, q1, q2⟩
        have := hPi.low q q1
        have := hPi.up p p1
        omega
    · exact (h.rows k (by omega)).frame (i := i) (by omega) (hP k (by omega)) r3.oL oD r3.oU

/-- equations satisfied by the factors -/
structure FactEq (A : ℕ → ℕ → R) (n : ℕ) (F : IluFact R) : Prop where
  l : ∀ i c, i < n → (∃ p, p < F.L.nnz.get i ∧ (F.L.index i).get p = c) →
    F.L.entry i c = (A i c - ∑ m ∈ range i, F.L.entry i m * F.U.entry m c) * F.D.get c
  d : ∀ i, i < n → F.D.get i = 1 / (A i i - ∑ m ∈ range i, F.L.entry i m * F.U.entry m i)
  u : ∀ i c, i < n → (∃ p, p < F.U.nnz.get i ∧ (F.U.index i).get p = c) →
    F.U.entry i c = A i c - ∑ m ∈ range i, F.L.entry i m * F.U.entry m c

theorem numerical_eq {A : Csr R} (hA : A.WF) (hnd : A.NoDup) {P : IluPat}
    (hP : ∀ k, k < A.n → PatShape A.n P k) (hL : P.nnzL.size = A.n) (hU : P.nnzU.size = A.n)
    (hc : ∀ i c, i < A.n → A.Stored i c → c < A.n ∧ InPat P i c) (junk : ℕ → ℕ → R) (junkD : Arr R) (hD : A.n ≤ junkD.size)
    (junkJw : ℕ → Option ℕ) :
    Ok (numericalFactCsr A P junk junkD junkJw) fun F => F.L.nnz = P.nnzL ∧ F.L.index = P.idxL ∧ F.U.nnz = P.nnzU ∧
      F.U.index = P.idxU ∧ (∀ k, k < A.n → (F.L.value k).size = P.nnzL.get k) ∧
      (∀ k, k < A.n → (F.U.value k).size = P.nnzU.get k) ∧ A.n ≤ F.D.size ∧ FactEq A.entry A.n F := by
  unfold numericalFactCsr
  rw [Ok_bind]
  refine Ok_loop_le (fun m (w : Arr (Option ℕ)) => w.size = A.n ∧ ∀ c, c < m → w.get c = none) (Nat.zero_le _)
    ⟨rfl, fun c hc => absurd hc (by omega)⟩ ?_ ?_
  · rintro m w - m2 ⟨a, b⟩
    rw [Ok_wr]
    refine ⟨by omega, a, fun c hc => ?_⟩
    rw [Arr.set_get]
    split_ifs
    · rfl
    · exact b c (by omega)
  · rintro jw ⟨w1, w2⟩
    rw [Ok_bind]
    refine Ok_loop_le (fun i s => NumInv A.entry A.n P i s) (Nat.zero_le _) ?_ ?_ ?_
    · exact ⟨fun k hk => (hP k hk).szL, fun k hk => (hP k hk).szU, hD, w1, w2, fun k hk => absurd hk (by omega)⟩
    · rintro i s - hi hs
      exact numRow_spec hA hnd hi (fun k hk => hP k (by omega)) hL hU (fun c hs => hc i c hi hs) hs
    · intro s hs
      rw [Ok_pure]
      exact ⟨rfl, rfl, rfl, rfl, hs.szL, hs.szU, hs.szD, ⟨fun i c hi h => (hs.rows i hi).l c h, fun i hi => (hs.rows i hi).d,
        fun i c hi h => (hs.rows i hi).u c h⟩⟩

end Lis
