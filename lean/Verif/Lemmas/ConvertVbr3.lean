import Verif.Lemmas.ConvertVbr2

/-! Lemmas on the conversion CSR → VBR: filling. -/

namespace Lis
open Finset
variable {R : Type}

/-- filling invariant within a block row of height `ht` that starts at block `base` and value `kv0` -/
structure VPut [Zero R] (nc bnnz nnz base kv0 ht : ℕ) (col : Arr ℕ) (f : ℕ → ℕ) (ptr0 bindex0 : Arr ℕ) (value0 : Arr R)
    (E : List (ℕ × ℕ × R)) (s : ℕ × ℕ × Arr ℕ × Arr ℕ × Arr ℕ × Arr R) : Prop where
  kk : s.1 = base + (vcols f E).length
  kv : s.2.1 = kv0 + blkOff (fun c => ht * (col.get (c + 1) - col.get c)) (vcols f E) (vcols f E).length
  sz1 : s.2.2.1.size = nc
  sz2 : s.2.2.2.1.size = bnnz + 1
  sz3 : s.2.2.2.2.1.size = bnnz
  sz4 : s.2.2.2.2.2.size = nnz
  iw0 : ∀ c, c < nc → c ∉ vcols f E → s.2.2.1.get c = 0
  iw1 : ∀ p (hp : p < (vcols f E).length),
    s.2.2.1.get (vcols f E)[p] = kv0 + blkOff (fun c => ht * (col.get (c + 1) - col.get c)) (vcols f E) p + 1
  ix : ∀ p (hp : p < (vcols f E).length), s.2.2.2.2.1.get (base + p) = (vcols f E)[p]
  ixo : ∀ q, q < base → s.2.2.2.2.1.get q = bindex0.get q
  pt : ∀ p, p < (vcols f E).length →
    s.2.2.2.1.get (base + p + 1) = kv0 + blkOff (fun c => ht * (col.get (c + 1) - col.get c)) (vcols f E) (p + 1)
  pto : ∀ q, q ≤ base ∨ base + (vcols f E).length < q → s.2.2.2.1.get q = ptr0.get q
  vl : ∀ p (hp : p < (vcols f E).length), ∀ ii j, ii < ht → j < col.get ((vcols f E)[p] + 1) - col.get (vcols f E)[p] →
    s.2.2.2.2.2.get (kv0 + blkOff (fun c => ht * (col.get (c + 1) - col.get c)) (vcols f E) p + (j * ht + ii)) =
      lastVal E ii (col.get (vcols f E)[p] + j)
  vlo : ∀ q, q < kv0 → s.2.2.2.2.2.get q = value0.get q

theorem vbrPutElem_spec [Zero R] {A : Csr R} {nc bnnz nnz base kv0 ht : ℕ} {col p2b : Arr ℕ} {ptr0 bindex0 : Arr ℕ} {value0 : Arr R}
    {E : List (ℕ × ℕ × R)} {s : ℕ × ℕ × Arr ℕ × Arr ℕ × Arr ℕ × Arr R} (hcol : PtrWF nc A.np col)
    (hf : Finds nc A.np col p2b.get) (hp2 : A.np ≤ p2b.size)
    (h : VPut nc bnnz nnz base kv0 ht col p2b.get ptr0 bindex0 value0 E s) {ii k : ℕ} (hii : ii < ht)
    (hki : k < A.index.size) (hkv : k < A.value.size) (hx : A.index.get k < A.np)
    (hE : ∀ e ∈ E, e.2.1 < A.np)
    (hroom : base + (vcols p2b.get (E ++ [(ii, A.index.get k, A.value.get k)])).length ≤ bnnz)
    (hroom2 : kv0 + ((vcols p2b.get (E ++ [(ii, A.index.get k, A.value.get k)])).map
      fun c => ht * (col.get (c + 1) - col.get c)).sum ≤ nnz) :
    Ok (vbrPutElem A col p2b ht ii k s)
      (VPut nc bnnz nnz base kv0 ht col p2b.get ptr0 bindex0 value0 (E ++ [(ii, A.index.get k, A.value.get k)])) := by
  obtain ⟨kk, kv, iw, ptr, bindex, value⟩ := s
  obtain ⟨h1, h2, s1, s2, s3, s4, h5, h6, h7, h8, h9, h10, h11, h12⟩ := h
  simp only at h1 h2 s1 s2 s3 s4 h5 h6 h7 h8 h9 h10 h11 h12
  have hcs := hcol.size
  generalize hc : A.index.get k = c at *
  obtain ⟨hb, hb1, hb2⟩ := hf c hx
  generalize hbj : p2b.get c = b at *
  obtain ⟨g, hg⟩ : ∃ g : ℕ → ℕ, g = fun c => ht * (col.get (c + 1) - col.get c) := ⟨_, rfl⟩
  rw [← hg] at h2 h6 h9 h11 hroom2
  obtain ⟨T, hT⟩ : ∃ T, T = vcols p2b.get E := ⟨_, rfl⟩
  rw [← hT] at h1 h2 h5 h10
  simp only [← hT] at h6 h7 h9 h11
  have hnd : T.Nodup := by rw [hT]; exact vcols_nodup _ _
  have hTlt : ∀ x ∈ T, x < nc := by
    rw [hT]; intro x hx
    obtain ⟨e, he, rfl⟩ := (vcols_mem _ _ _).1 hx
    exact (hf _ (hE e he)).1
  -- position of `c` in a block that starts at column `b`
  have hiff : ∀ b' j', b' < nc → j' < col.get (b' + 1) - col.get b' → (c = col.get b' + j' ↔ b = b' ∧ c - col.get b = j') := by
    intro b' j' hb' hj'
    constructor
    · intro hh
      have : b = b' := hcol.unique (r := c) hb hb' hb1 hb2 (by omega) (by omega)
      subst this
      exact ⟨rfl, by omega⟩
    · rintro ⟨rfl, rfl⟩; omega
  have hgb : ∀ b' j' ii', ii' < ht → j' < col.get (b' + 1) - col.get b' → j' * ht + ii' < g b' := by
    intro b' j' ii' hi' hj'
    rw [hg]
    show _ < ht * (col.get (b' + 1) - col.get b')
    rw [Nat.mul_comm ht]
    exact flat_lt hj' hi'
  have hcpos := hgb b (c - col.get b) ii hii (by omega)
  unfold vbrPutElem
  simp only [Ok_bind, Ok_rd]
  rw [hc, hbj]
  refine ⟨hki, by omega, by omega, by omega, ?_⟩
  by_cases hm : b ∈ T
  · have hcols : vcols p2b.get (E ++ [(ii, c, A.value.get k)]) = T := by
      rw [vcols_snoc, hT]; rw [hT] at hm; simp only [hbj]; exact if_pos hm
    rw [hcols] at hroom hroom2
    obtain ⟨p, hp, hpe⟩ := List.getElem_of_mem hm
    have hjp := h6 p hp
    rw [hpe] at hjp
    rw [hjp, if_neg (by omega)]
    simp only [Ok_bind, Ok_rd, Ok_wr]
    rw [Ok_pure]
    have hsum : blkOff g T p + g b ≤ (T.map g).sum := by
      rw [← blkOff_length, ← hpe, ← blkOff_succ g hp]; exact blkOff_mono g T hp
    rw [show kv0 + blkOff g T p + 1 + ((c - col.get b) * ht + ii) - 1 =
      kv0 + blkOff g T p + ((c - col.get b) * ht + ii) by omega]
    refine ⟨hkv, by omega, ?_⟩
    constructor
    · rw [hcols]; exact h1
    · rw [hcols, ← hg]; exact h2
    · exact s1
    · exact s2
    · exact s3
    · simpa using s4
    · rw [hcols]; exact h5
    · simpa only [hcols, ← hg] using h6
    · simpa only [hcols] using h7
    · exact h8
    · simpa only [hcols, ← hg] using h9
    · rw [hcols]; exact h10
    · intro p' hp' ii' j' hii' hj'
      simp only [hcols, ← hg] at hp' hj' ⊢
      rw [lastVal_snoc, Arr.set_get]
      have hb' := hTlt _ (List.getElem_mem hp')
      have hpos' := hgb _ _ _ hii' hj'
      have key : kv0 + blkOff g T p' + (j' * ht + ii') = kv0 + blkOff g T p + ((c - col.get b) * ht + ii) ↔
          (ii = ii' ∧ c = col.get T[p'] + j') := by
        rw [hiff _ _ hb' hj']
        constructor
        · intro hh
          have hpp : p' = p := by
            rcases Nat.lt_trichotomy p' p with hl | hl | hl
            · have e1 := blkOff_succ g hp'
              have e2 := blkOff_mono g T (show p' + 1 ≤ p from hl)
              omega
            · exact hl
            · have e1 := blkOff_succ g hp
              have e2 := blkOff_mono g T (show p + 1 ≤ p' from hl)
              rw [hpe] at e1
              omega
          subst hpp
          obtain ⟨e1, e2⟩ := block_disj hii' hii (show j' * ht + ii' = (c - col.get b) * ht + ii by omega)
          exact ⟨e2.symm, hpe.symm, e1.symm⟩
        · rintro ⟨rfl, e1, rfl⟩
          have : p = p' := (List.Nodup.getElem_inj_iff hnd).1 (hpe.trans e1)
          subst this; rfl
      by_cases hh : ii = ii' ∧ c = col.get T[p'] + j'
      · rw [if_pos hh, if_pos (key.2 hh)]
      · rw [if_neg hh, if_neg (fun x => hh (key.1 x)), h11 p' hp' ii' j' hii' hj']
    · intro q hq
      simp only
      rw [Arr.set_get_ne _ _ (by omega)]
      exact h12 q hq
  · have hcols : vcols p2b.get (E ++ [(ii, c, A.value.get k)]) = T ++ [b] := by
      rw [vcols_snoc, hT]; rw [hT] at hm; simp only [hbj]; exact if_neg hm
    rw [hcols] at hroom hroom2
    simp only [List.length_append, List.length_singleton] at hroom
    rw [List.map_append, List.sum_append, ← blkOff_length] at hroom2
    simp only [List.map_cons, List.map_nil, List.sum_cons, List.sum_nil, Nat.add_zero] at hroom2
    have hgbe : ht * (col.get (b + 1) - col.get b) = g b := by rw [hg]
    rw [h5 _ hb hm, if_pos rfl]
    simp only [Ok_bind, Ok_rd, Ok_wr]
    rw [hgbe]
    refine ⟨by omega, ?_⟩
    refine Ok_loop_le (fun k (w : Arr R) => w.size = nnz ∧
      (∀ q, q < kv → w.get q = value.get q) ∧
      ∀ q, q < k → w.get (kv + q) = 0) (Nat.zero_le _) ⟨s4, fun _ _ => rfl, by simp⟩ ?_ ?_
    · rintro k w _ hk ⟨w1, w2, w3⟩
      simp only [Ok_wr]
      refine ⟨by omega, by simpa, fun q hq => ?_, fun q hq => ?_⟩
      · rw [Arr.set_get_ne _ _ (by omega)]; exact w2 q hq
      · rw [Arr.set_get]
        split
        · rfl
        · exact w3 q (by omega)
    rintro w ⟨w1, w2, w3⟩
    rw [Ok_pure]
    refine ⟨by omega, hkv, by omega, by omega, by omega, ?_⟩
    have hnl : ∀ p (hp : p < T.length), T[p] ≠ b := fun p hp he => hm (he ▸ List.getElem_mem hp)
    have hl1 : (vcols p2b.get (E ++ [(ii, c, A.value.get k)])).length = T.length + 1 := by
      rw [hcols]; simp
    have hoT : blkOff g (T ++ [b]) T.length = blkOff g T T.length := blkOff_append g b le_rfl
    have hoT1 : blkOff g (T ++ [b]) (T.length + 1) = blkOff g T T.length + g b := by
      rw [blkOff_succ g (by simp), hoT]; simp
    constructor
    · rw [hl1]; simp only; omega
    · rw [hl1, hcols, ← hg, hoT1]; simp only; omega
    · simpa using s1
    · simpa using s2
    · simpa using s3
    · simpa using w1
    · intro x hx hxm
      rw [hcols] at hxm
      simp only [List.mem_append, List.mem_singleton, not_or] at hxm
      simp only
      rw [Arr.set_get_ne _ _ hxm.2]
      exact h5 x hx hxm.1
    · intro p hp
      simp only [hcols, ← hg] at hp ⊢
      simp only [List.length_append, List.length_singleton] at hp
      by_cases hpl : p = T.length
      · subst hpl
        rw [hoT]
        simp [h2]
      · rw [List.getElem_append_left (by omega), Arr.set_get_ne _ _ (hnl p (by omega)), blkOff_append g b (by omega)]
        exact h6 p (by omega)
    · intro p hp
      simp only [hcols] at hp ⊢
      simp only [List.length_append, List.length_singleton] at hp
      by_cases hpl : p = T.length
      · subst hpl
        simp [h1]
      · rw [List.getElem_append_left (by omega), Arr.set_get_ne _ _ (by omega)]
        exact h7 p (by omega)
    · intro q hq
      simp only
      rw [Arr.set_get_ne _ _ (by omega)]; exact h8 q hq
    · intro p hp
      simp only [hcols, ← hg] at hp ⊢
      simp only [List.length_append, List.length_singleton] at hp
      rw [Arr.set_get]
      by_cases hpl : p = T.length
      · subst hpl
        rw [if_pos (by omega), hoT1]; omega
      · rw [if_neg (by omega), blkOff_append g b (by omega)]
        exact h9 p (by omega)
    · intro q hq
      rw [hl1] at hq
      simp only
      rw [Arr.set_get_ne _ _ (by omega)]
      exact h10 q (by omega)
    · intro p hp ii' j' hii' hj'
      simp only [hcols, ← hg] at hp hj' ⊢
      simp only [List.length_append, List.length_singleton] at hp
      rw [lastVal_snoc, Arr.set_get]
      by_cases hpl : p = T.length
      · subst hpl
        rw [hoT, ← h2]
        simp only [List.getElem_append_right (Nat.le_refl _), Nat.sub_self, List.getElem_cons_zero] at hj' ⊢
        have hpos' := hgb b j' ii' hii' hj'
        by_cases hh : ii = ii' ∧ c = col.get b + j'
        · have := (hiff _ _ hb hj').1 hh.2
          rw [if_pos hh, if_pos (by rw [hh.1, this.2])]
        · rw [if_neg hh, if_neg]
          · rw [w3 _ hpos', lastVal_zero]
            rintro e he ⟨_, e2⟩
            apply hm
            rw [hT, vcols_mem]
            refine ⟨e, he, ?_⟩
            obtain ⟨f1, f2, f3⟩ := hf _ (hE e he)
            exact hcol.unique (r := e.2.1) f1 hb f2 f3 (by omega) (by omega)
          · intro hx
            obtain ⟨e1, e2⟩ := block_disj hii' hii (show j' * ht + ii' = (c - col.get b) * ht + ii by omega)
            exact hh ⟨e2.symm, (hiff _ _ hb hj').2 ⟨rfl, e1.symm⟩⟩
      · have hpT : p < T.length := by omega
        simp only [List.getElem_append_left hpT] at hj' ⊢
        have hb' := hTlt _ (List.getElem_mem hpT)
        have hpos' := hgb _ _ _ hii' hj'
        have e1 := blkOff_succ g hpT
        have e2 := blkOff_mono g T (show p + 1 ≤ T.length from hpT)
        rw [blkOff_append g b (by omega), if_neg (by omega), if_neg, w2 _ (by omega), h11 p hpT ii' j' hii' hj']
        rintro ⟨_, e2⟩
        exact hnl p hpT ((hiff _ _ hb' hj').1 e2).1.symm
    · intro q hq
      simp only
      rw [Arr.set_get_ne _ _ (by omega), w2 q (by omega)]
      exact h12 q hq

theorem vbrPut_spec [Zero R] {A : Csr R} (h : A.WF) {nc bnnz nnz base kv0 s0 ht : ℕ} {col p2b : Arr ℕ} (hcol : PtrWF nc A.np col)
    (hf : Finds nc A.np col p2b.get) (hp2 : A.np ≤ p2b.size) (hsm : s0 + ht ≤ A.n)
    {iw ptr bindex : Arr ℕ} {value : Arr R} (s1 : iw.size = nc) (s2 : ptr.size = bnnz + 1) (s3 : bindex.size = bnnz)
    (s4 : value.size = nnz) (h0 : ∀ c, c < nc → iw.get c = 0)
    (hroom : base + (vcols p2b.get (rowElems A s0 ht)).length ≤ bnnz)
    (hroom2 : kv0 + ((vcols p2b.get (rowElems A s0 ht)).map fun c => ht * (col.get (c + 1) - col.get c)).sum ≤ nnz) :
    Ok (vbrPut A col p2b s0 ht (base, kv0, iw, ptr, bindex, value))
      (VPut nc bnnz nnz base kv0 ht col p2b.get ptr bindex value (rowElems A s0 ht)) := by
  have hisz := h.isz
  have hvsz := h.vsz
  unfold vbrPut
  rw [show min ht (A.n - s0) = ht by omega]
  have hnil : vcols p2b.get ([] : List (ℕ × ℕ × R)) = [] := rfl
  refine Ok_rowElems h hsm (fun E s => VPut nc bnnz nnz base kv0 ht col p2b.get ptr bindex value E s) ?_ ?_
  · exact ⟨by simp [hnil], by simp [hnil, blkOff], s1, s2, s3, s4, fun c hc _ => h0 c hc, by simp [hnil], by simp [hnil],
      fun _ _ => rfl, by simp [hnil], fun _ _ => rfl, by simp [hnil], fun _ _ => rfl⟩
  · intro ii k E s hii _ hk hx hs hpre
    have hv := vcols_prefix p2b.get hpre
    have hl := hv.length_le
    refine vbrPutElem_spec hcol hf hp2 hs hii (by omega) (by omega) hx ?_ (by omega) ?_
    · intro e he
      obtain ⟨e1, e2⟩ := rowElems_mem.1 (hpre.subset (List.mem_append_left _ he))
      exact Csr.rowList_lt h (by omega) _ e2
    · obtain ⟨t, ht⟩ := hv
      rw [← ht, List.map_append, List.sum_append] at hroom2
      omega

end Lis
