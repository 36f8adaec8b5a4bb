import Verif.Lemmas.Convert2c

/-! Lemmas on the conversion CSR → JAD. -/

namespace Lis
open Finset
variable {R : Type}

theorem sorted_count_desc {N r m : ℕ} {f : ℕ → ℕ} (hf : ∀ a b, a ≤ b → b < N → f b ≤ f a)
    (hm : m = ((range N).filter fun k => r < f k).card) {k : ℕ} (hk : k < N) : r < f k ↔ k < m := by
  constructor
  · intro h
    have : range (k + 1) ⊆ (range N).filter fun k => r < f k := by
      intro x hx
      simp only [mem_range] at hx
      simp only [mem_filter, mem_range]
      exact ⟨by omega, h.trans_le (hf x k (by omega) hk)⟩
    have := card_le_card this
    rw [card_range] at this
    omega
  · intro h
    by_contra hc
    have : ((range N).filter fun k => r < f k) ⊆ range k := by
      intro x hx
      simp only [mem_filter, mem_range] at hx
      simp only [mem_range]
      by_contra hxk
      exact hc (hx.2.trans_le (hf k x (by omega) hx.1))
    have := card_le_card this
    rw [card_range] at this
    omega

/-- length of row `i` -/
def Csr.len (A : Csr R) (i : ℕ) : ℕ := A.ptr.get (i + 1) - A.ptr.get i

theorem Csr.WF.sum_len {A : Csr R} (h : A.WF) : ∑ i ∈ range A.n, A.len i = A.nnz := by
  have : ∀ m, m ≤ A.n → ∑ i ∈ range m, A.len i = A.ptr.get m := by
    intro m
    induction m with
    | zero => intro _; simp [h.ptr.zero]
    | succ m ih =>
      intro hm
      have := h.ptr.mono m (by omega)
      rw [sum_range_succ, ih (by omega)]; unfold Csr.len; omega
  rw [this A.n le_rfl, h.ptr.last]

/-- number of rows with more than `d` elements -/
def Csr.longer (A : Csr R) (d : ℕ) : ℕ := ((range A.n).filter fun i => d < A.len i).card

theorem csr2jad_spec' (junk : ℕ → ℕ → ℕ) (vjunk : ℕ → R) {A : Csr R} (h : A.WF) :
    Ok (csr2jad junk vjunk A) fun J => J.n = A.n ∧ J.np = A.np ∧ J.nnz = A.nnz ∧ J.row.size = A.n ∧
      J.index.size = A.nnz ∧ J.value.size = A.nnz ∧ PtrWF J.maxnzr A.nnz J.ptr ∧
      (∀ i, i < A.n → A.len i ≤ J.maxnzr) ∧
      (∀ k, k < A.n → J.row.get k < A.n) ∧ (∀ k l, k < A.n → l < A.n → J.row.get k = J.row.get l → k = l) ∧
      (∀ d, d < J.maxnzr → J.ptr.get (d + 1) - J.ptr.get d ≤ A.n) ∧
      (∀ k, k < A.n → ∀ d, d < J.maxnzr → (d < A.len (J.row.get k) ↔ k < J.ptr.get (d + 1) - J.ptr.get d)) ∧
      ∀ k, k < A.n → ∀ d, d < A.len (J.row.get k) →
        J.index.get (J.ptr.get d + k) = A.index.get (A.ptr.get (J.row.get k) + d) ∧
        J.value.get (J.ptr.get d + k) = A.value.get (A.ptr.get (J.row.get k) + d) := by
  have hps := h.ptr.size
  have his := h.isz
  have hvs := h.vsz
  unfold csr2jad
  simp only [Ok_bind]
  refine Ok_loop_le (fun i (s : Arr ℕ × ℕ) => s.1.size = A.n ∧ (∀ k, k < i → s.1.get k = A.len k) ∧ ∀ k, k < i → A.len k ≤ s.2)
    (Nat.zero_le _) ⟨rfl, by simp, by simp⟩ ?_ ?_
  · rintro i ⟨iw, m⟩ _ hi ⟨w1, w2, w3⟩
    simp only at w1 w2 w3
    simp only [Ok_bind, Ok_rd, Ok_wr, Ok_pure]
    refine ⟨by omega, by omega, by omega, by simpa, fun k hk => ?_, fun k hk => ?_⟩
    · rw [Arr.set_get]
      split
      · next hh => rw [hh]; rfl
      · exact w2 k (by omega)
    · by_cases hki : k = i
      · subst hki
        show A.ptr.get (k + 1) - A.ptr.get k ≤ _
        split <;> omega
      · have := w3 k (by omega)
        split <;> omega
  rintro ⟨iw, M⟩ ⟨w1, w2, w3⟩
  simp only at w1 w2 w3
  refine Ok_fillConst (by simp) fun p0 hp0 hpz => ?_
  simp only [Arr.malloc_size] at hp0
  obtain ⟨em, hem⟩ : ∃ em : ℕ → List (ℕ × Unit), em = fun i => emits 0 (A.len i) fun j => [(j, ())] := ⟨_, rfl⟩
  refine Ok_loop_le (fun i (s : Arr ℕ × Arr ℕ) => s.1.size = A.n ∧ (∀ k, k < i → s.1.get k = k) ∧
    Counted M 1 (emits 0 i em) s.2 ∧ s.2.size = M + 1 ∧ s.2.get 0 = 0) (Nat.zero_le _)
    ⟨rfl, by simp, ⟨by simp only; omega, fun c hc => by rw [emits_self]; simpa using hpz (c + 1) (by omega)⟩, hp0, hpz 0 (by omega)⟩ ?_ ?_
  · rintro i ⟨perm, p⟩ _ hi ⟨s1, s2, s3⟩
    simp only at s1 s2 s3
    have hl := w3 i hi
    simp only [Ok_bind, Ok_rd, Ok_wr]
    refine ⟨by omega, by omega, ?_⟩
    rw [w2 i hi]
    refine Ok_emit (em := fun j => [(j, ())]) (fun pre (p : Arr ℕ) => Counted M 1 pre p ∧ p.size = M + 1 ∧ p.get 0 = 0)
      (E := emits 0 i em) (Nat.zero_le _) s3 ?_ ?_
    · rintro j p _ hj ⟨c1, c2, c3⟩ _
      have hst := c1.step (e := (j, ())) (by simp only; omega)
      simp only [Ok_bind, Ok_rd, Ok_wr]
      refine ⟨by omega, by omega, hst.2, by simpa, ?_⟩
      rw [Arr.set_get_ne _ _ (by omega)]; exact c3
    · intro p hp
      rw [Ok_pure]
      refine ⟨by simpa, fun k hk => ?_, ?_⟩
      · show (perm.set i i).get k = k
        rw [Arr.set_get]
        split
        · next hh => exact hh.symm
        · exact s2 k (by omega)
      · rw [emits_succ (Nat.zero_le _), hem]
        rw [hem] at hp; exact hp
  rintro ⟨perm, p⟩ ⟨s1, s2, c1, c2, c3⟩
  simp only at s1 s2 c1 c2 c3
  refine (lisSortrIi_spec 0 ((A.n : ℤ) - 1) (iw, perm) (by omega) (by simp only; omega) (by simp only; omega)).mono ?_
  rintro ⟨iw', perm'⟩ ⟨g, g1, ⟨g2, g2'⟩, ⟨g3, g3'⟩, g4⟩
  simp only at g2 g2' g3 g3' g4
  have hgin : ∀ k, k < A.n → g k < A.n := by
    intro k hk
    by_contra hc
    have := g1 (g k) (by omega)
    have := g.injective this
    omega
  have hperm : ∀ k, k < A.n → perm'.get k = g k := fun k hk => by rw [g3', s2 _ (hgin k hk)]
  have hdesc : ∀ a b, a ≤ b → b < A.n → A.len (g b) ≤ A.len (g a) := by
    intro a b hab hb
    have := g4 a b (by omega) hab (by omega)
    rw [g2', g2', w2 _ (hgin a (by omega)), w2 _ (hgin b hb)] at this
    exact this
  rw [Ok_wr]
  refine ⟨by show 0 < p.size; omega, ?_⟩
  have hset : p.set 0 0 = p := by
    cases p with
    | mk sz ge =>
      simp only [Arr.set, Arr.mk.injEq, true_and]
      funext k
      split
      · next hh => rw [hh]; exact c3.symm
      · rfl
  show Ok (prefixSums M (p.set 0 0)) _
  rw [hset]
  refine (prefixSums_counted c1 c3).mono ?_
  rintro ptr ⟨p1, p2, hsegs⟩
  have hcnt : ∀ d, d < M → (byKey d (emits 0 A.n em)).length = A.longer d := by
    intro d _
    rw [byKey_emits, emits_length]
    unfold Csr.longer
    rw [card_filter, range_eq_Ico]
    refine sum_congr rfl fun i _ => ?_
    rw [hem]
    show (byKey d (emits 0 (A.len i) fun j => [(j, ())])).length = _
    rw [byKey_emits]
    by_cases hd : d < A.len i
    · rw [if_pos hd, emits_only (k := d) (Nat.zero_le _) hd]
      · rw [byKey_single]; simp
      · intro l _ _ hne
        rw [byKey_single, if_neg hne]
    · rw [if_neg hd, emits_nil]
      · rfl
      · intro k _ hk
        rw [byKey_single, if_neg (by simp only; omega)]
  have hkeys : ∀ e ∈ emits 0 A.n em, e.1 < M := by
    intro e he
    obtain ⟨i, _, hi, he⟩ := emits_mem.1 he
    rw [hem] at he
    obtain ⟨j, _, hj, he⟩ := emits_mem.1 he
    rw [List.mem_singleton] at he
    subst he
    have := w3 i hi
    simp only; omega
  have hlast : ptr.get M = A.nnz := by
    rw [hsegs.last p2 hkeys, emits_length, ← h.sum_len, range_eq_Ico]
    refine sum_congr rfl fun i _ => ?_
    rw [hem]
    show (emits 0 (A.len i) fun j => [(j, ())]).length = _
    rw [emits_length]; simp
  have hsucc : ∀ d, d < M → ptr.get (d + 1) = ptr.get d + A.longer d := fun d hd => by
    rw [hsegs.succ d hd, hcnt d hd]
  have hptr : PtrWF M A.nnz ptr := ⟨by omega, p2, fun d hd => by rw [hsucc d hd]; omega, hlast⟩
  have hlong : ∀ d, A.longer d ≤ A.n := by
    intro d
    have := card_filter_le (range A.n) fun i => d < A.len i
    rw [card_range] at this; exact this
  have hlg : ∀ d, A.longer d = ((range A.n).filter fun k => d < A.len (g k)).card := by
    intro d
    unfold Csr.longer
    symm
    refine card_bij (fun k _ => g k) ?_ (fun a _ b _ hab => g.injective hab) ?_
    · intro k hk
      simp only [mem_filter, mem_range] at hk ⊢
      exact ⟨hgin k hk.1, hk.2⟩
    · intro i hi
      simp only [mem_filter, mem_range] at hi
      refine ⟨g.symm i, ?_, by simp⟩
      simp only [mem_filter, mem_range, Equiv.apply_symm_apply]
      refine ⟨?_, hi.2⟩
      by_contra hc
      have := g1 (g.symm i) (by omega)
      rw [Equiv.apply_symm_apply] at this
      omega
  have hiff : ∀ k, k < A.n → ∀ d, d < A.len (g k) ↔ k < A.longer d := fun k hk d =>
    sorted_count_desc (f := fun k => A.len (g k)) hdesc (hlg d) hk
  have hpos : ∀ k, k < A.n → ∀ d, d < A.len (g k) → d < M ∧ ptr.get d + k < ptr.get (d + 1) ∧ ptr.get d + k < A.nnz := by
    intro k hk d hd
    have h1 := w3 _ (hgin k hk)
    have h2 := (hiff k hk d).1 hd
    have h3 := hsucc d (by omega)
    have h4 := hptr.le_nnz (i := d + 1) (by omega)
    omega
  have hdisj : ∀ k l, k < A.n → l < A.n → ∀ d e, d < A.len (g k) → e < A.len (g l) → ptr.get d + k = ptr.get e + l → d = e ∧ k = l := by
    intro k l hk hl d e hd he heq
    obtain ⟨a1, a2, -⟩ := hpos k hk d hd
    obtain ⟨b1, b2, -⟩ := hpos l hl e he
    rcases Nat.lt_trichotomy d e with hh | hh | hh
    · have := hptr.mono' (i := d + 1) (j := e) (by omega) (by omega); omega
    · subst hh; omega
    · have := hptr.mono' (i := e + 1) (j := d) (by omega) (by omega); omega
  refine Ok_loop_le (fun i (s : Arr ℕ × Arr R) => s.1.size = A.nnz ∧ s.2.size = A.nnz ∧ ∀ k, k < i → ∀ d, d < A.len (g k) →
    s.1.get (ptr.get d + k) = A.index.get (A.ptr.get (g k) + d) ∧ s.2.get (ptr.get d + k) = A.value.get (A.ptr.get (g k) + d))
    (Nat.zero_le _) ⟨rfl, rfl, by simp⟩ ?_ ?_
  · rintro i ⟨ix, vl⟩ _ hi ⟨t1, t2, t3⟩
    simp only at t1 t2 t3
    have hgi := hgin i hi
    have hlen : A.len (g i) = A.ptr.get (g i + 1) - A.ptr.get (g i) := rfl
    have hmono := h.ptr.mono _ hgi
    simp only [Ok_bind, Ok_rd]
    refine ⟨by omega, ?_⟩
    rw [hperm i hi]
    refine ⟨by omega, by omega, ?_⟩
    refine Ok_loop_le (fun j (s : Arr ℕ × Arr R) => s.1.size = A.nnz ∧ s.2.size = A.nnz ∧ (∀ k, k < i → ∀ d, d < A.len (g k) →
      s.1.get (ptr.get d + k) = A.index.get (A.ptr.get (g k) + d) ∧ s.2.get (ptr.get d + k) = A.value.get (A.ptr.get (g k) + d)) ∧
      ∀ d, A.ptr.get (g i) + d < j →
        s.1.get (ptr.get d + i) = A.index.get (A.ptr.get (g i) + d) ∧ s.2.get (ptr.get d + i) = A.value.get (A.ptr.get (g i) + d))
      hmono ⟨t1, t2, t3, fun d hd => by omega⟩ ?_ ?_
    · rintro j ⟨ix, vl⟩ hj1 hj2 ⟨t1, t2, t3, t4⟩
      simp only at t1 t2 t3 t4
      have hjn := h.ptr.lt_nnz hgi hj2
      have hdl : j - A.ptr.get (g i) < A.len (g i) := by omega
      obtain ⟨a1, a2, a3⟩ := hpos i hi _ hdl
      simp only [Ok_bind, Ok_rd, Ok_wr]
      refine ⟨by omega, by omega, by omega, by omega, by omega, ?_⟩
      rw [Ok_pure]
      refine ⟨by simpa, by simpa, fun k hk d hd => ?_, fun d hd => ?_⟩
      · have hne : ptr.get d + k ≠ ptr.get (j - A.ptr.get (g i)) + i := fun he => by
          have := (hdisj k i (by omega) hi d _ hd hdl he).2; omega
        show (ix.set _ _).get _ = _ ∧ (vl.set _ _).get _ = _
        rw [Arr.set_get_ne _ _ hne, Arr.set_get_ne _ _ hne]; exact t3 k hk d hd
      · show (ix.set _ _).get _ = _ ∧ (vl.set _ _).get _ = _
        by_cases hde : A.ptr.get (g i) + d = j
        · rw [show j - A.ptr.get (g i) = d by omega, Arr.set_get_self, Arr.set_get_self, hde]; exact ⟨rfl, rfl⟩
        · have hne : ptr.get d + i ≠ ptr.get (j - A.ptr.get (g i)) + i := fun he => by
            have := (hdisj i i hi hi d _ (by omega) hdl he).1; omega
          rw [Arr.set_get_ne _ _ hne, Arr.set_get_ne _ _ hne]; exact t4 d (by omega)
    · rintro ⟨ix, vl⟩ ⟨t1, t2, t3, t4⟩
      refine ⟨t1, t2, fun k hk d hd => ?_⟩
      by_cases hki : k = i
      · subst hki; exact t4 d (by omega)
      · exact t3 k (by omega) d hd
  · rintro ⟨ix, vl⟩ ⟨t1, t2, t3⟩
    simp only at t1 t2 t3
    rw [Ok_pure]
    refine ⟨rfl, rfl, rfl, by simp only; omega, t1, t2, hptr, w3, fun k hk => ?_, fun k l hk hl he => ?_, fun d hd => ?_,
      fun k hk d hd => ?_, fun k hk d hd => ?_⟩
    · show perm'.get k < A.n
      rw [hperm k hk]; exact hgin k hk
    · simp only at he
      rw [hperm k hk, hperm l hl] at he
      exact g.injective he
    · simp only
      have := hlong d
      rw [hsucc d hd]; omega
    · show d < A.len (perm'.get k) ↔ k < ptr.get (d + 1) - ptr.get d
      rw [hperm k hk, hiff k hk d, hsucc d hd, Nat.add_sub_cancel_left]
    · change d < A.len (perm'.get k) at hd
      show ix.get (ptr.get d + k) = A.index.get (A.ptr.get (perm'.get k) + d) ∧ vl.get (ptr.get d + k) = A.value.get (A.ptr.get (perm'.get k) + d)
      rw [hperm k hk] at hd ⊢
      exact t3 k hk d hd

end Lis
