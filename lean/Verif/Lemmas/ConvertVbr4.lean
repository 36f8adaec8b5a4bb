import Verif.Lemmas.ConvertVbr3
import Verif.Props.Blocks

/-! Lemmas on the conversion CSR → VBR: the finished arrays. -/

namespace Lis
open Finset
variable {R : Type}

/-- block columns of block row `b` -/
def vbrT (A : Csr R) (row : Arr ℕ) (f : ℕ → ℕ) (b : ℕ) : List ℕ :=
  vcols f (rowElems A (row.get b) (row.get (b + 1) - row.get b))

/-- what the finished arrays hold -/
structure Vbr.Holds [Zero R] (B : Vbr R) (A : Csr R) (nr nc : ℕ) (row col : Arr ℕ) (f : ℕ → ℕ) : Prop where
  hn : B.n = A.n
  hnr : B.nr = nr
  hnc : B.nc = nc
  hrow : B.row = row
  hcol : B.col = col
  psz : B.bptr.size = nr + 1
  bptr : ∀ i, i ≤ nr → B.bptr.get i = ∑ k ∈ range i, (vbrT A row f k).length
  bnnz : B.bnnz = B.bptr.get nr
  isz : B.bindex.size = B.bnnz
  qsz : B.ptr.size = B.bnnz + 1
  vsz : B.value.size = ∑ k ∈ range nr, vbrSize A row col f k
  ix : ∀ b, b < nr → ∀ p (hp : p < (vbrT A row f b).length), B.bindex.get (B.bptr.get b + p) = (vbrT A row f b)[p]
  pt : ∀ b, b < nr → ∀ p, p < (vbrT A row f b).length →
    B.ptr.get (B.bptr.get b + p) = (∑ k ∈ range b, vbrSize A row col f k) + blkOff (vbrG row col b) (vbrT A row f b) p
  vl : ∀ b, b < nr → ∀ p (hp : p < (vbrT A row f b).length), ∀ ii j, ii < row.get (b + 1) - row.get b →
    j < col.get ((vbrT A row f b)[p] + 1) - col.get (vbrT A row f b)[p] →
    B.value.get (B.ptr.get (B.bptr.get b + p) + j * (row.get (b + 1) - row.get b) + ii) =
      lastVal (rowElems A (row.get b) (row.get (b + 1) - row.get b)) ii (col.get (vbrT A row f b)[p] + j)

theorem csr2vbrWith_holds [Zero R] {A : Csr R} (h : A.WF) (hnp : A.np = A.n) {nr nc : ℕ} {row col : Arr ℕ}
    (hr : PtrWF nr A.n row) (hcol : PtrWF nc A.n col) (junk : ℕ → ℕ → ℕ) (vjunk : ℕ → R) :
    Ok (csr2vbrWith nr nc row col junk vjunk A) fun B => ∃ f, Finds nc A.n col f ∧ B.Holds A nr nc row col f := by
  have hrs := hr.size
  unfold csr2vbrWith
  simp only [Ok_bind]
  refine (vbrP2b_spec hcol (by simp)).mono ?_
  rintro p2b ⟨hp1, hf⟩
  refine (vbrCount_spec h hr hcol hnp hf hp1 junk (by simp) (by simp)).mono ?_
  rintro ⟨bp0, ct0⟩ ⟨g1, g2, g3, g4, g5⟩
  simp only at g1 g2 g3 g4 g5
  simp only [Ok_wr]
  refine ⟨by omega, ?_⟩
  refine Ok_accum (b := 0) (fun k => vbrLen A row p2b.get k) (Arr.set_get_self _ _ _)
    (fun i hi => by rw [Arr.set_get_ne _ _ (by omega)]; exact g4 i hi) ?_ ?_
  · intro i q hi hq
    rw [Arr.set_size] at hq
    simp only [Ok_bind, Ok_rd, Ok_wr]
    exact ⟨by omega, by omega, by omega, trivial⟩
  intro bp hb1 hb2
  rw [Arr.set_size, g1] at hb1
  simp only [Nat.zero_add] at hb2
  simp only [Ok_rd]
  refine ⟨by omega, ?_⟩
  refine Ok_accum (b := 0) (fun k => vbrSize A row col p2b.get k) g3 g5 ?_ ?_
  · intro i q hi hq
    simp only [Ok_bind, Ok_rd, Ok_wr]
    exact ⟨by omega, by omega, by omega, trivial⟩
  intro ct hc1 hc2
  rw [g2] at hc1
  simp only [Nat.zero_add] at hc2
  refine ⟨by omega, ?_⟩
  obtain ⟨T, hT⟩ : ∃ T : ℕ → List ℕ, T = vbrT A row p2b.get := ⟨_, rfl⟩
  have hTl : ∀ b, vbrLen A row p2b.get b = (T b).length := fun b => by rw [hT]; rfl
  have hTs : ∀ b, vbrSize A row col p2b.get b = ((T b).map (vbrG row col b)).sum := fun b => by rw [hT]; rfl
  have hbs : ∀ i, i < nr → bp.get (i + 1) = bp.get i + (T i).length := fun i hi => by
    rw [hb2 _ (by omega), hb2 _ (by omega), sum_range_succ, hTl]
  have hcs : ∀ i, i < nr → ct.get (i + 1) = ct.get i + vbrSize A row col p2b.get i := fun i hi => by
    rw [hc2 _ (by omega), hc2 _ (by omega), sum_range_succ]
  have hbm : ∀ i j, i ≤ j → j ≤ nr → bp.get i ≤ bp.get j := fun i j hij hj => by
    rw [hb2 _ (by omega), hb2 _ hj]; exact sum_le_sum_of_subset (by simpa using hij)
  have hcm : ∀ i j, i ≤ j → j ≤ nr → ct.get i ≤ ct.get j := fun i j hij hj => by
    rw [hc2 _ (by omega), hc2 _ hj]; exact sum_le_sum_of_subset (by simpa using hij)
  have hce : ∀ i j, i ≤ j → j ≤ nr → bp.get i = bp.get j → ct.get i = ct.get j := by
    intro i j hij
    induction j, hij using Nat.le_induction with
    | base => intros; rfl
    | succ j hij ih =>
      intro hj he
      have e1 := hbs j (by omega)
      have e2 := hbm i j hij (by omega)
      have e3 : T j = [] := List.eq_nil_of_length_eq_zero (by omega)
      rw [hcs j (by omega), ih (by omega) (by omega), hTs, e3]; rfl
  unfold vbrFill
  simp only [Ok_bind]
  refine Ok_loop_le (fun i (q : Arr ℕ) => q.size = bp.get nr + 1 ∧ ∀ b, b < i → q.get (bp.get b) = ct.get b) (Nat.zero_le _)
    ⟨by simp, by simp⟩ ?_ ?_
  · rintro i q _ hi ⟨q1, q2⟩
    simp only [Ok_bind, Ok_rd, Ok_wr]
    have := hbm i nr (by omega) le_rfl
    refine ⟨by omega, by omega, by omega, by simpa, fun b hb => ?_⟩
    rw [Arr.set_get]
    split
    · next he => exact (hce b i (by omega) (by omega) he).symm
    · next he => exact q2 b (by have : b ≠ i := fun hh => he (by rw [hh]); omega)
  rintro ptr0 ⟨q1, q2⟩
  refine Ok_fillConst (by simp) fun iw0 hiw0 hiz => ?_
  refine Ok_loop_le (fun bi (s : Arr ℕ × Arr ℕ × Arr ℕ × Arr R) => s.1.size = nc ∧ s.2.1.size = bp.get nr + 1 ∧
    s.2.2.1.size = bp.get nr ∧ s.2.2.2.size = ct.get nr ∧ (∀ c, c < nc → s.1.get c = 0) ∧
    (∀ b, b < nr → s.2.1.get (bp.get b) = ct.get b) ∧
    ∀ b, b < bi → ∀ p (hp : p < (T b).length),
      s.2.2.1.get (bp.get b + p) = (T b)[p] ∧ s.2.1.get (bp.get b + p) = ct.get b + blkOff (vbrG row col b) (T b) p ∧
      ∀ ii j, ii < row.get (b + 1) - row.get b → j < col.get ((T b)[p] + 1) - col.get (T b)[p] →
        s.2.2.2.get (ct.get b + blkOff (vbrG row col b) (T b) p + (j * (row.get (b + 1) - row.get b) + ii)) =
        lastVal (rowElems A (row.get b) (row.get (b + 1) - row.get b)) ii (col.get (T b)[p] + j)) (Nat.zero_le _)
    ⟨by simpa using hiw0, q1, by simp, by simp, hiz, q2, by simp⟩ ?_ ?_
  · rintro bi ⟨iw, pt, bx, vl⟩ _ hbi ⟨a1, a2, a3, a4, a5, a6, a7⟩
    simp only at a1 a2 a3 a4 a5 a6 a7
    have hm := hr.mono bi hbi
    have hle := hr.le_nnz (i := bi + 1) hbi
    have e1 := hbs bi hbi
    have e2 := hcs bi hbi
    have e3 := hbm (bi + 1) nr (by omega) le_rfl
    have e4 := hcm (bi + 1) nr (by omega) le_rfl
    simp only [Ok_bind, Ok_rd]
    refine ⟨by omega, by omega, by omega, by omega, ?_⟩
    rw [a6 bi hbi]
    have hTv : vcols p2b.get (rowElems A (row.get bi) (row.get (bi + 1) - row.get bi)) = T bi := by rw [hT]; rfl
    refine (vbrPut_spec h (nc := nc) (bnnz := bp.get nr) (nnz := ct.get nr) (base := bp.get bi) (kv0 := ct.get bi)
      (by rw [hnp]; exact hcol) (by rw [hnp]; exact hf) (by omega) (by omega) a1 a2 a3 a4 a5 (by rw [hTv]; omega) ?_).mono ?_
    · rw [hTv]
      have : vbrSize A row col p2b.get bi =
        ((T bi).map fun c => (row.get (bi + 1) - row.get bi) * (col.get (c + 1) - col.get c)).sum := hTs bi
      omega
    rintro ⟨kk, kv, iw', pt', bx', vl'⟩ ⟨p1, p2, z1, z2, z3, z4, p5, p6, p7, p8, p9, p10, p11, p12⟩
    simp only [hTv] at p1 p2 z1 z2 z3 z4 p5 p6 p7 p8 p9 p10 p11 p12
    change ∀ p, p < (T bi).length → pt'.get (bp.get bi + p + 1) = ct.get bi + blkOff (vbrG row col bi) (T bi) (p + 1) at p9
    change ∀ p (hp : p < (T bi).length), ∀ ii j, ii < row.get (bi + 1) - row.get bi →
      j < col.get ((T bi)[p] + 1) - col.get (T bi)[p] → vl'.get (ct.get bi + blkOff (vbrG row col bi) (T bi) p +
        (j * (row.get (bi + 1) - row.get bi) + ii)) = _ at p11
    simp only
    refine ⟨by omega, by omega, ?_⟩
    have hin : ∀ x ∈ T bi, x < nc := by
      rw [← hTv]
      exact vcols_lt h (by rw [hnp]; exact hf) (by omega) (List.prefix_refl _)
    rw [e1]
    refine Ok_loop_le (fun k (w : Arr ℕ) => w.size = nc ∧
      ∀ c, c < nc → (c ∉ (T bi).drop (k - bp.get bi)) → w.get c = 0)
      (Nat.le_add_right _ _) ⟨z1, by simpa using p5⟩ ?_ ?_
    · rintro k w hk1 hk2 ⟨w1, w2⟩
      simp only [Ok_bind, Ok_rd, Ok_wr]
      have hkk : k - bp.get bi < (T bi).length := by omega
      have hx := p7 _ hkk
      rw [show bp.get bi + (k - bp.get bi) = k by omega] at hx
      rw [hx]
      refine ⟨by omega, by rw [w1]; exact hin _ (List.getElem_mem _), by simpa, fun c hc hcn => ?_⟩
      rw [Arr.set_get]
      split
      · rfl
      · next hne =>
        refine w2 c hc ?_
        rw [List.drop_eq_getElem_cons hkk, List.mem_cons, show k - bp.get bi + 1 = k + 1 - bp.get bi by omega]
        simp only [hne, false_or]
        exact hcn
    · rintro w ⟨w1, w2⟩
      rw [Ok_pure]
      refine ⟨w1, z2, z3, z4, fun c hc => w2 c hc (by simp), fun b hb => ?_, fun b hb p hp => ?_⟩
      · simp only
        by_cases hq : bp.get b ≤ bp.get bi ∨ bp.get bi + (T bi).length < bp.get b
        · rw [p10 _ hq]; exact a6 b hb
        · have hbb : bi < b := by
            by_contra hh
            exact hq (Or.inl (hbm b bi (by omega) (by omega)))
          have e5 := hbm (bi + 1) b hbb (by omega)
          have e6 := p9 ((T bi).length - 1) (by omega)
          rw [show (T bi).length - 1 + 1 = (T bi).length by omega, blkOff_length, ← hTs, ← e2,
            show bp.get bi + ((T bi).length - 1) + 1 = bp.get b by omega] at e6
          rw [e6]
          exact hce (bi + 1) b hbb (by omega) (by omega)
      · simp only
        by_cases hbb : b = bi
        · subst hbb
          refine ⟨p7 p hp, ?_, p11 p hp⟩
          rcases Nat.eq_zero_or_pos p with h0 | h0
          · subst h0
            rw [blkOff_zero, Nat.add_zero, Nat.add_zero, p10 _ (Or.inl le_rfl)]
            exact a6 b hbi
          · have := p9 (p - 1) (by omega)
            rw [show bp.get b + (p - 1) + 1 = bp.get b + p by omega, show p - 1 + 1 = p by omega] at this
            exact this
        · have hlt : bp.get b + p < bp.get bi := by
            have h1 := hbs b (by omega)
            have h2 := hbm (b + 1) bi (by omega) (by omega)
            omega
          obtain ⟨c1, c2, c3⟩ := a7 b (by omega) p hp
          refine ⟨by rw [p8 _ hlt, c1], by rw [p10 _ (by omega), c2], fun ii j hii hj => ?_⟩
          rw [p12, c3 ii j hii hj]
          have f1 := hcs b (by omega)
          have f2 := hcm (b + 1) bi (by omega) (by omega)
          have f3 := blkOff_succ (vbrG row col b) hp
          have f4 := blkOff_mono (vbrG row col b) (T b) (show p + 1 ≤ (T b).length from hp)
          rw [blkOff_length, ← hTs] at f4
          have f5 : j * (row.get (b + 1) - row.get b) + ii < vbrG row col b (T b)[p] := by
            unfold vbrG
            rw [Nat.mul_comm (row.get (b + 1) - row.get b)]
            exact flat_lt hj hii
          omega
  · rintro ⟨iw, pt, bx, vl⟩ ⟨a1, a2, a3, a4, a5, a6, a7⟩
    simp only at a1 a2 a3 a4 a5 a6 a7
    rw [Ok_pure]
    rw [Ok_pure]
    refine ⟨p2b.get, hf, ?_⟩
    constructor <;> simp only
    · exact hb1
    · exact hb2
    · exact a3
    · exact a2
    · rw [a4, hc2 _ le_rfl]
    · rw [← hT]; exact fun b hb p hp => (a7 b hb p hp).1
    · rw [← hT]; intro b hb p hp; rw [(a7 b hb p hp).2.1, hc2 b (by omega)]
    · rw [← hT]; intro b hb p hp ii j hii hj
      rw [(a7 b hb p hp).2.1, Nat.add_assoc]
      exact (a7 b hb p hp).2.2 ii j hii hj

/-- without duplicates, the last value given to a position is the entry -/
theorem lastVal_rowElems [AddCommMonoid R] {A : Csr R} (hd : A.NoDup) {s m ii c : ℕ} (hsm : s + m ≤ A.n) (hii : ii < m) :
    lastVal (rowElems A s m) ii c = A.entry (s + ii) c := by
  have hnd : ((rowElems A s m).map fun e => (e.1, e.2.1)).Nodup := by
    unfold rowElems concatRows
    rw [List.map_flatMap, List.nodup_flatMap]
    refine ⟨fun ii hii => ?_, ?_⟩
    · rw [List.map_map]
      have := Csr.NoDup.rowList hd (i := s + ii) (by simp at hii; omega)
      have h2 := this.map (f := fun x => (ii, x)) (fun a b hab => by simpa using hab)
      rw [List.map_map] at h2
      exact h2
    · refine List.Pairwise.imp_of_mem ?_ (List.nodup_range (n := m))
      intro a b _ _ hab
      rw [Function.onFun, List.disjoint_left]
      intro x hx hy
      simp only [List.mem_map] at hx hy
      obtain ⟨_, ⟨_, _, rfl⟩, rfl⟩ := hx
      obtain ⟨_, ⟨_, _, rfl⟩, hy⟩ := hy
      exact hab (by simpa using (congrArg Prod.fst hy).symm)
  rw [lastVal_sum hnd, Csr.entry_rowList]
  unfold rowElems concatRows
  rw [flatMap_range_sum, sum_eq_single ii]
  · rw [List.map_map]; congr 1; refine List.map_congr_left fun e _ => ?_; simp
  · intro b _ hb
    rw [List.map_map]
    refine List.sum_eq_zero ?_
    intro x hx
    simp only [List.mem_map, Function.comp] at hx
    obtain ⟨e, _, rfl⟩ := hx
    simp [hb]
  · intro hh; simp at hh; omega

theorem Vbr.Holds.wf [Zero R] {B : Vbr R} {A : Csr R} (h : A.WF) (hnp : A.np = A.n) {nr nc : ℕ} {row col : Arr ℕ} {f : ℕ → ℕ}
    (hr : PtrWF nr A.n row) (hcol : PtrWF nc A.n col) (hf : Finds nc A.n col f) (hB : B.Holds A nr nc row col f) : B.WF := by
  obtain ⟨n, bnr, bnc, bnnz, brow, bcol, ptr, bptr, bindex, value⟩ := B
  obtain ⟨g1, g2, g3, g4, g5, g6, g7, g8, g9, g10, g11, g12, g13, g14⟩ := hB
  simp only at g1 g2 g3 g4 g5 g6 g7 g8 g9 g10 g11 g12 g13 g14
  subst g1 g2 g3 g4 g5
  have hp : PtrWF bnr bnnz bptr := ⟨by omega, by rw [g7 0 (by omega)]; simp, fun i hi => by
    rw [g7 _ (by omega), g7 _ (by omega), sum_range_succ]; omega, g8.symm⟩
  have hs : ∀ b, b < bnr → bptr.get (b + 1) = bptr.get b + (vbrT A brow f b).length := fun b hb => by
    rw [g7 _ (by omega), g7 _ (by omega), sum_range_succ]
  refine ⟨hr, hcol, hp, by simp only; omega, by simp only; omega, ?_, ?_⟩ <;> simp only
  · intro k hk
    obtain ⟨b, hb, h1, h2⟩ := hp.locate hk
    rw [hs b hb] at h2
    have := g12 b hb (k - bptr.get b) (by omega)
    rw [show bptr.get b + (k - bptr.get b) = k by omega] at this
    rw [this]
    have hm := hr.mono b hb
    have hl := hr.le_nnz (i := b + 1) hb
    exact vcols_lt h (by rw [hnp]; exact hf) (by omega) (List.prefix_refl _) _ (List.getElem_mem _)
  · intro b hb bc h1 h2
    rw [hs b hb] at h2
    have hlt : bc - bptr.get b < (vbrT A brow f b).length := by omega
    have e1 := g12 b hb (bc - bptr.get b) hlt
    have e2 := g13 b hb (bc - bptr.get b) hlt
    rw [show bptr.get b + (bc - bptr.get b) = bc by omega] at e1 e2
    rw [e1, e2, g11]
    have f3 := blkOff_succ (vbrG brow bcol b) hlt
    have f4 := blkOff_mono (vbrG brow bcol b) (vbrT A brow f b) (show bc - bptr.get b + 1 ≤ (vbrT A brow f b).length from hlt)
    rw [blkOff_length] at f4
    change _ ≤ vbrSize A brow bcol f b at f4
    have f5 : ∑ k ∈ range (b + 1), vbrSize A brow bcol f k ≤ ∑ k ∈ range bnr, vbrSize A brow bcol f k :=
      sum_le_sum_of_subset (by simpa using hb)
    rw [sum_range_succ] at f5
    have f6 : vbrG brow bcol b (vbrT A brow f b)[bc - bptr.get b] =
      (bcol.get ((vbrT A brow f b)[bc - bptr.get b] + 1) - bcol.get (vbrT A brow f b)[bc - bptr.get b]) *
        (brow.get (b + 1) - brow.get b) := Nat.mul_comm _ _
    omega

theorem Vbr.Holds.entry [AddCommMonoid R] {B : Vbr R} {A : Csr R} (h : A.WF) (hd : A.NoDup) (hnp : A.np = A.n)
    {nr nc : ℕ} {row col : Arr ℕ} {f : ℕ → ℕ}
    (hr : PtrWF nr A.n row) (hcol : PtrWF nc A.n col) (hf : Finds nc A.n col f) (hB : B.Holds A nr nc row col f)
    {i j : ℕ} (hi : i < A.n) : B.entry i j = A.entry i j := by
  have hwf := hB.wf h hnp hr hcol hf
  obtain ⟨n, bnr, bnc, bnnz, brow, bcol, ptr, bptr, bindex, value⟩ := B
  obtain ⟨g1, g2, g3, g4, g5, g6, g7, g8, g9, g10, g11, g12, g13, g14⟩ := hB
  simp only at g1 g2 g3 g4 g5 g6 g7 g8 g9 g10 g11 g12 g13 g14
  subst g1 g2 g3 g4 g5
  obtain ⟨b, hb, h1, h2⟩ := hr.locate hi
  have hs : bptr.get (b + 1) = bptr.get b + (vbrT A brow f b).length := by
    rw [g7 _ (by omega), g7 _ (by omega), sum_range_succ]
  have hm := hr.mono b hb
  have hle := hr.le_nnz (i := b + 1) hb
  unfold Vbr.entry
  simp only
  rw [sum_eq_single b]
  · have hL : A.entry i j = lastVal (rowElems A (brow.get b) (brow.get (b + 1) - brow.get b)) (i - brow.get b) j := by
      rw [lastVal_rowElems hd (by omega) (by omega), show brow.get b + (i - brow.get b) = i by omega]
    rw [hL, hs, sum_Ico_eq_sum_range, Nat.add_sub_cancel_left]
    have hin : ∀ x ∈ vbrT A brow f b, x < bnc :=
      vcols_lt h (by rw [hnp]; exact hf) (by omega) (List.prefix_refl _)
    have hblk : ∀ p (hp : p < (vbrT A brow f b).length),
        (Vbr.mk A.n bnr bnc bnnz brow bcol ptr bptr bindex value).blockEntry b (bptr.get b + p) i j =
        if bcol.get (vbrT A brow f b)[p] ≤ j ∧ j < bcol.get ((vbrT A brow f b)[p] + 1) then
          lastVal (rowElems A (brow.get b) (brow.get (b + 1) - brow.get b)) (i - brow.get b) j else 0 := by
      intro p hp
      unfold Vbr.blockEntry
      simp only
      rw [g12 b hb p hp]
      by_cases hc : bcol.get (vbrT A brow f b)[p] ≤ j ∧ j < bcol.get ((vbrT A brow f b)[p] + 1)
      · rw [if_pos hc, if_pos ⟨⟨h1, h2⟩, hc⟩, g14 b hb p hp _ _ (by omega) (by omega)]
        congr 1; omega
      · rw [if_neg hc, if_neg (by tauto)]
    by_cases hmem : j < A.n ∧ f j ∈ vbrT A brow f b
    · obtain ⟨hj, hmem⟩ := hmem
      obtain ⟨p, hp, hpe⟩ := List.getElem_of_mem hmem
      obtain ⟨f1, f2, f3⟩ := hf j hj
      rw [sum_eq_single p, hblk p hp, hpe, if_pos ⟨f2, f3⟩]
      · intro q hq hqp
        simp only [mem_range] at hq
        rw [hblk q hq, if_neg]
        rintro ⟨c1, c2⟩
        have hqn := hin _ (List.getElem_mem hq)
        have := hcol.unique hqn f1 c1 c2 f2 f3
        exact hqp ((List.Nodup.getElem_inj_iff (vcols_nodup _ _)).1 (this.trans hpe.symm))
      · intro hh; simp at hh; omega
    · rw [lastVal_zero]
      · refine sum_eq_zero fun q hq => ?_
        simp only [mem_range] at hq
        rw [hblk q hq]
        split
        · next hc =>
          have hqn := hin _ (List.getElem_mem hq)
          have hj : j < A.n := lt_of_lt_of_le hc.2 (hcol.le_nnz (i := (vbrT A brow f b)[q] + 1) hqn)
          obtain ⟨f1, f2, f3⟩ := hf j hj
          have := hcol.unique hqn f1 hc.1 hc.2 f2 f3
          exact absurd ⟨hj, this ▸ List.getElem_mem hq⟩ hmem
        · rfl
      · rintro e he ⟨e1, e2⟩
        obtain ⟨m1, m2⟩ := rowElems_mem.1 he
        have := Csr.rowList_lt h (i := brow.get b + e.1) (by omega) _ m2
        exact hmem ⟨by omega, (vcols_mem _ _ _).2 ⟨e, he, by rw [e2]⟩⟩
  · intro b' hb' hne
    refine sum_eq_zero fun bc _ => ?_
    unfold Vbr.blockEntry
    simp only
    rw [if_neg]
    rintro ⟨⟨c1, c2⟩, _⟩
    exact hne (hr.unique (by simpa using hb') hb c1 c2 h1 h2)
  · intro hh; simp at hh; omega

end Lis
