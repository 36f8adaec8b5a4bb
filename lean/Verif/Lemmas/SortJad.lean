import Verif.Model.Sort
import Verif.Base.Lists3
import Verif.Lemmas.Convert1

/-! Correctness of the counting sort `lis_sort_jad`. -/

namespace Lis
open Finset

theorem Segs.locate' {α : Type} {m : ℕ} {p : ℕ → ℕ} {full : List (ℕ × α)} (h : Segs m p full)
    {k : ℕ} (h0 : p 0 ≤ k) (hk : k < p m) :
    ∃ c, c < m ∧ ∃ q, q < (byKey c full).length ∧ k = p c + q := by
  induction m with
  | zero => omega
  | succ m ih =>
    by_cases hk' : k < p m
    · obtain ⟨c, hc, q, hq⟩ := ih ⟨fun c hc => h.succ c (by omega)⟩ hk'
      exact ⟨c, by omega, q, hq⟩
    · have := h.succ m (by omega)
      exact ⟨m, by omega, k - p m, by omega, by omega⟩

theorem byKey_pairwise {α : Type} {r : α → α → Prop} {L : List (ℕ × α)} (h : L.Pairwise fun a b => r a.2 b.2) (c : ℕ) :
    (byKey c L).Pairwise r := by
  unfold byKey
  refine List.Pairwise.filterMap _ ?_ h
  intro a b hab x hx y hy
  split at hx
  · split at hy
    · simp only [Option.some.injEq] at hx hy; rw [← hx, ← hy]; exact hab
    · simp at hy
  · simp at hx

theorem lisSortJad_spec' (junk : ℕ → ℕ → ℕ) (is ie maxnzr : ℕ) (i1 i2 : Arr ℕ) (hle : is ≤ ie) (h1 : ie ≤ i1.size)
    (h2 : ie ≤ i2.size) (hm : ∀ i, is ≤ i → i < ie → i1.get i ≤ maxnzr) :
    Ok (lisSortJad junk is ie maxnzr i1 i2) fun r =>
      r.1.size = i1.size ∧ r.2.size = i2.size ∧
      (∀ k, is ≤ k → k < ie → is ≤ r.2.get k ∧ r.2.get k < ie ∧ r.1.get k = i1.get (r.2.get k)) ∧
      (∀ a b, is ≤ a → a < b → b < ie → r.1.get b < r.1.get a ∨ (r.1.get b = r.1.get a ∧ r.2.get a < r.2.get b)) ∧
      ∀ k, ¬ (is ≤ k ∧ k < ie) → r.1.get k = i1.get k ∧ r.2.get k = i2.get k := by
  obtain ⟨em, hem⟩ : ∃ em : ℕ → List (ℕ × ℕ), em = fun i => [(maxnzr - i1.get i, i)] := ⟨_, rfl⟩
  have hmem : ∀ e, e ∈ emits is ie em → e.1 < maxnzr + 1 ∧ is ≤ e.2 ∧ e.2 < ie ∧ e.1 = maxnzr - i1.get e.2 := by
    intro e he
    obtain ⟨j, j1, j2, j3⟩ := emits_mem.1 he
    rw [hem, List.mem_singleton] at j3
    subst j3
    exact ⟨by omega, j1, j2, rfl⟩
  have hlen : (emits is ie em).length = ie - is := by
    rw [emits_length, hem]; simp
  have hpw : (emits is ie em).Pairwise fun a b => a.2 < b.2 := by
    rw [hem]
    unfold emits
    rw [show (List.range' is (ie - is)).flatMap (fun i => [(maxnzr - i1.get i, i)]) =
      (List.range' is (ie - is)).map (fun i => (maxnzr - i1.get i, i)) from (List.map_eq_flatMap).symm, List.pairwise_map]
    exact List.pairwise_lt_range'
  unfold lisSortJad
  simp only [Ok_bind]
  refine Ok_fillConst (by simp) fun iw0 hiw0 hiz => ?_
  simp only [Arr.malloc_size] at hiw0
  refine Ok_emit (em := em) (E := []) (fun pre iw => Counted (maxnzr + 1) 1 pre iw ∧ iw.size = maxnzr + 2) hle
    ⟨⟨by omega, fun c hc => by simpa using hiz (c + 1) (by omega)⟩, hiw0⟩ ?_ ?_
  · rintro j iw j1 j2 ⟨hc, hsz⟩ _
    have hlm := hm j j1 j2
    have hst := hc.step (e := (maxnzr - i1.get j, j)) (by simp only; omega)
    simp only [Ok_bind, Ok_rd, Ok_rdI, Ok_wrI]
    have e : ((maxnzr : ℤ) - i1.get j + 1).toNat = maxnzr - i1.get j + 1 := by omega
    rw [e]
    rw [hem] at hst ⊢
    exact ⟨by omega, by omega, by omega, by omega, by omega, hst.2, by simpa⟩
  rintro iw ⟨hc, hisz⟩
  simp only [List.nil_append] at hc
  simp only [Ok_wr]
  refine ⟨by omega, ?_⟩
  refine Ok_accum (b := is) (fun c => (byKey c (emits is ie em)).length) (by simp) (fun i hi => ?_) ?_ ?_
  · rw [Arr.set_get_ne _ _ (by omega)]; exact hc.cnt i hi
  · intro i q hi hq
    simp only [Arr.set_size] at hq
    simp only [Ok_bind, Ok_rd, Ok_wr]
    exact ⟨by omega, by omega, by omega, trivial⟩
  intro p hp hpre
  simp only [Arr.set_size] at hp
  have hsegs : Segs (maxnzr + 1) p.get (emits is ie em) :=
    ⟨fun c hc => by rw [hpre (c + 1) (by omega), hpre c (by omega), sum_range_succ]; omega⟩
  have hp0 : p.get 0 = is := by rw [hpre 0 (by omega)]; simp
  have hpl : p.get (maxnzr + 1) = ie := by
    rw [hpre _ le_rfl, byKey_total fun e he => (hmem e he).1, hlen]; omega
  refine Ok_loop_le (fun i (w : Arr ℕ) => w.size = maxnzr + 2 ∧ ∀ k, k < i → w.get k = p.get k) (Nat.zero_le _)
    ⟨rfl, fun k hk => by omega⟩ ?_ ?_
  · rintro i w _ hi ⟨w1, w2⟩
    simp only [Ok_bind, Ok_rd, Ok_wr]
    refine ⟨by omega, by omega, by simpa, fun k hk => ?_⟩
    rw [Arr.set_get]
    split
    · next hh => rw [hh]
    · exact w2 k (by omega)
  rintro iw2 ⟨hw2s, hw2⟩
  refine Ok_emit (em := em) (E := []) (fun pre (s : Arr ℕ × Arr ℕ) => Scat (maxnzr + 1) p.get pre s.1.get s.2.get ∧
      s.1.size = maxnzr + 2 ∧ s.2.size = i2.size ∧ ∀ k, ¬ (is ≤ k ∧ k < ie) → s.2.get k = i2.get k) hle
    ⟨Scat.nil fun c _ => rfl, by simp only; omega, rfl, fun _ _ => rfl⟩ ?_ ?_
  · rintro j ⟨w, x⟩ j1 j2 ⟨hs, hws, hxs, hout⟩ hpf
    simp only [List.nil_append] at hs hpf hws hxs hout
    have hpf' : emits is j em ++ [(maxnzr - i1.get j, j)] <+: emits is ie em := by simpa [hem] using hpf
    have hlm := hm j j1 j2
    have e : ((maxnzr : ℤ) - i1.get j).toNat = maxnzr - i1.get j := by omega
    have hlt := hs.lt_end hsegs hpf' (by simp only; omega)
    have hge : is ≤ w.get (maxnzr - i1.get j) := by
      rw [hs.pos _ (by omega)]
      have := hsegs.mono (a := 0) (b := maxnzr - i1.get j) (by omega) (by omega)
      omega
    simp only [hpl] at hlt
    simp only [Ok_bind, Ok_rd, Ok_rdI, Ok_wrI, Ok_wr]
    rw [e, Ok_pure]
    refine ⟨by omega, by omega, by omega, by omega, by omega, by omega, ?_, by simpa, by simpa, fun k hk => ?_⟩
    · rw [List.nil_append, hem]
      rw [hem] at hs hpf'
      rw [hem] at hsegs
      refine hs.step hsegs hpf' (by simp only; omega) (fun c => ?_) fun q => ?_ <;> simp only [Arr.set_get]
    · simp only
      rw [Arr.set_get_ne _ _ (by omega)]; exact hout k hk
  rintro ⟨w, x⟩ ⟨hs, _, hxs, hout⟩
  simp only [List.nil_append] at hs hxs hout ⊢
  refine Ok_loop_le (fun i (y : Arr ℕ) => y.size = i1.size ∧
      (∀ c, c < i → ∀ k, p.get c ≤ k → k < p.get (c + 1) → y.get k = maxnzr - c) ∧
      ∀ k, (k < is ∨ p.get i ≤ k) → y.get k = i1.get k) (Nat.zero_le _)
    ⟨rfl, fun c hc => by omega, fun k _ => rfl⟩ ?_ ?_
  · rintro i y _ hi ⟨y1, y2, y3⟩
    simp only [Ok_bind, Ok_rd]
    refine ⟨by omega, by omega, ?_⟩
    rw [hw2 i (by omega), hw2 (i + 1) (by omega)]
    have hmono := hsegs.mono (a := i) (b := i + 1) (by omega) (by omega)
    have hmono2 := hsegs.mono (a := i + 1) (b := maxnzr + 1) (by omega) (by omega)
    have hmono0 := hsegs.mono (a := 0) (b := i) (by omega) (by omega)
    refine Ok_loop_le (fun j (z : Arr ℕ) => z.size = i1.size ∧ (∀ k, p.get i ≤ k → k < j → z.get k = maxnzr - i) ∧
        ∀ k, (k < p.get i ∨ j ≤ k) → z.get k = y.get k) hmono ⟨y1, fun k h1 h2 => by omega, fun k _ => rfl⟩ ?_ ?_
    · rintro j z j1 j2 ⟨z1, z2, z3⟩
      simp only [Ok_wr]
      refine ⟨by omega, by simpa, fun k k1 k2 => ?_, fun k hk => ?_⟩
      · rw [Arr.set_get]
        split
        · rfl
        · exact z2 k k1 (by omega)
      · rw [Arr.set_get_ne _ _ (by omega)]; exact z3 k (by omega)
    · rintro z ⟨z1, z2, z3⟩
      refine ⟨z1, fun c hc k k1 k2 => ?_, fun k hk => ?_⟩
      · by_cases hci : c = i
        · subst hci; exact z2 k k1 k2
        · have := hsegs.mono (a := c + 1) (b := i) (by omega) (by omega)
          rw [z3 k (by omega)]; exact y2 c (by omega) k k1 k2
      · rw [z3 k (by omega)]; exact y3 k (by omega)
  rintro y ⟨y1, y2, y3⟩
  rw [Ok_pure]
  have hk : ∀ k, is ≤ k → k < ie → ∃ c, c < maxnzr + 1 ∧ ∃ q, ∃ hq : q < (byKey c (emits is ie em)).length,
      k = p.get c + q ∧ x.get k = (byKey c (emits is ie em))[q] ∧ y.get k = maxnzr - c ∧ is ≤ x.get k ∧ x.get k < ie ∧
      i1.get (x.get k) = maxnzr - c := by
    intro k k1 k2
    obtain ⟨c, hc', q, hq, e⟩ := hsegs.locate' (k := k) (by omega) (by omega)
    have hput := hs.put c hc' q hq
    rw [← e] at hput
    have hme := byKey_mem.1 (List.getElem_mem hq)
    rw [← hput] at hme
    have h5 := hmem _ hme
    simp only at h5
    have := hm _ h5.2.1 h5.2.2.1
    refine ⟨c, hc', q, hq, e, hput, y2 c hc' k (by omega) (by rw [hsegs.succ c hc']; omega), h5.2.1, h5.2.2.1, by omega⟩
  refine ⟨y1, hxs, fun k k1 k2 => ?_, fun a b a1 a2 a3 => ?_, fun k hk' => ⟨y3 k (by omega), hout k hk'⟩⟩
  · obtain ⟨c, hc', q, hq, e, e1, e2, e3, e4, e5⟩ := hk k k1 k2
    exact ⟨e3, e4, by rw [e2, e5]⟩
  · obtain ⟨c, hc', q, hq, e, e1, e2, e3, e4, e5⟩ := hk a a1 (by omega)
    obtain ⟨d, hd', q', hq', f, f1, f2, f3, f4, f5⟩ := hk b (by omega) a3
    simp only at *
    rw [e2, f2]
    rcases Nat.lt_trichotomy c d with hcd | hcd | hcd
    · left; omega
    · right
      subst hcd
      refine ⟨rfl, ?_⟩
      rw [e1, f1]
      exact List.pairwise_iff_getElem.1 (byKey_pairwise (r := (· < ·)) hpw c) q q' hq hq' (by omega)
    · exfalso
      have := hsegs.mono (a := d + 1) (b := c) (by omega) (by omega)
      have := hsegs.succ d hd'
      omega

end Lis
