import Verif.Model.SolveBsr
import Verif.Lemmas.Matvec3
import Verif.Lemmas.Vector

/-! Helper lemmas for the triangular solves with BSR matrices. -/

namespace Lis
open Finset
variable {R : Type}

/-- elements `o … o+b-1` of vector `x` become `f 0 … f (b-1)`, nothing else changes -/
structure BlkUpd (h : Vecs R) (x o b : ℕ) (f : ℕ → R) (h' : Vecs R) : Prop where
  other : ∀ w, w ≠ x → h' w = h w
  len : (h' x).n = (h x).n
  size : (h' x).value.size = (h x).value.size
  val : ∀ r, r < b → (h' x).value.get (o + r) = f r
  rest : ∀ j, ¬ (o ≤ j ∧ j < o + b) → (h' x).value.get j = (h x).value.get j

section
variable [CommRing R]

/-- row `r` of block row `i` times `u`, over the stored blocks -/
def blkDot (M : Bsr R) (i r : ℕ) (u : ℕ → R) : R :=
  ∑ bc ∈ Ico (M.bptr.get i) (M.bptr.get (i + 1)), ∑ c ∈ range M.bnc,
    M.value.get (bc * (M.bnr * M.bnc) + c * M.bnr + r) * u (M.bindex.get bc * M.bnc + c)

theorem blkDot_entry {M : Bsr R} (h : M.WF) {i r : ℕ} (hi : i < M.nr) (hr : r < M.bnr) (u : ℕ → R) :
    blkDot M i r u = ∑ j ∈ range (M.nc * M.bnc), M.entry (i * M.bnr + r) j * u j := by
  rw [Bsr.row_sum h u (by rw [mul_add_div' hr]; exact hi), mul_add_div' hr, mul_add_mod'' hr]
  rfl

theorem blkDot_congr {M : Bsr R} {i r : ℕ} {u v : ℕ → R}
    (h : ∀ bc, M.bptr.get i ≤ bc → bc < M.bptr.get (i + 1) → ∀ c, c < M.bnc →
      u (M.bindex.get bc * M.bnc + c) = v (M.bindex.get bc * M.bnc + c)) : blkDot M i r u = blkDot M i r v := by
  unfold blkDot
  refine sum_congr rfl fun k hk => sum_congr rfl fun c hc => ?_
  rw [mem_Ico] at hk
  rw [h k hk.1 hk.2 c (mem_range.1 hc)]

theorem Ok_opMul (op : R → R → R) (a : Arr R) (p : ℕ) (h : Vecs R) (x q : ℕ) (t : R) (Q : R → Prop) :
    Ok (opMul op a p h x q t) Q ↔ p < a.size ∧ q < (h x).value.size ∧ Q (op t (a.get p * (h x).value.get q)) := by
  unfold opMul
  simp only [Ok_bind, Ok_rd, Ok_vrd, Ok_pure]

/-- bounds of the elements of one stored block -/
theorem blk_bounds {M : Bsr R} (h : M.WF) {i bc : ℕ} (hi : i < M.nr) (hbc : bc < M.bptr.get (i + 1)) {m : ℕ}
    (hm : M.nc * M.bnc ≤ m) : bc < M.bindex.size ∧ bc * (M.bnr * M.bnc) + M.bnr * M.bnc ≤ M.value.size ∧
      M.bindex.get bc * M.bnc + M.bnc ≤ m := by
  have hlt := h.bptr.lt_nnz hi hbc
  have hix := h.idx bc hlt
  have hv := h.vsz
  have hz := h.isz
  have h1 : (bc + 1) * (M.bnr * M.bnc) ≤ M.bnnz * (M.bnr * M.bnc) := Nat.mul_le_mul_right _ hlt
  have h2 : (M.bindex.get bc + 1) * M.bnc ≤ M.nc * M.bnc := Nat.mul_le_mul_right _ hix
  rw [Nat.add_mul] at h1 h2
  exact ⟨by omega, by omega, by omega⟩

variable {op : R → R → R} {s : R}

theorem accBsr1_spec (hop : ∀ t u, op t u = t + s * u) {M : Bsr R} (h : M.WF) (hr : M.bnr = 1) (hc : M.bnc = 1)
    {x i : ℕ} (hi : i < M.nr) {v : Vecs R} (hx : M.nc * M.bnc ≤ (v x).value.size) (t : R) :
    Ok (accBsr1 op M x i v t) fun t' => t' = t + s * blkDot M i 0 (v x).value.get := by
  have := h.bptr.size
  unfold accBsr1
  simp only [Ok_bind, Ok_rd]
  refine ⟨by omega, by omega, ?_⟩
  refine Ok_loop_sum' (fun bc => s * ∑ c ∈ range M.bnc, M.value.get (bc * (M.bnr * M.bnc) + c * M.bnr + 0) *
    (v x).value.get (M.bindex.get bc * M.bnc + c)) (fun j t k1 k2 => ?_) ?_
  · obtain ⟨b1, b2, b3⟩ := blk_bounds h hi k2 hx
    rw [hr, hc] at b2
    rw [hc] at b3
    simp only [Ok_bind, Ok_rd, Ok_opMul, hr, hc]
    exact ⟨by omega, by omega, by omega, by simp [hop]⟩
  · rw [blkDot, mul_sum]

theorem accBsr2_spec (hop : ∀ t u, op t u = t + s * u) {M : Bsr R} (h : M.WF) (hr : M.bnr = 2) (hc : M.bnc = 2)
    {x i : ℕ} (hi : i < M.nr) {v : Vecs R} (hx : M.nc * M.bnc ≤ (v x).value.size) (t : R × R) :
    Ok (accBsr2 op M x i v t) fun t' => t' = (t.1 + s * blkDot M i 0 (v x).value.get,
      t.2 + s * blkDot M i 1 (v x).value.get) := by
  have := h.bptr.size
  have hm := h.bptr.mono i hi
  unfold accBsr2
  simp only [Ok_bind, Ok_rd]
  refine ⟨by omega, by omega, ?_⟩
  obtain ⟨g, hg⟩ : ∃ g : ℕ → ℕ → R, g = fun r bc => ∑ c ∈ range M.bnc,
    M.value.get (bc * (M.bnr * M.bnc) + c * M.bnr + r) * (v x).value.get (M.bindex.get bc * M.bnc + c) := ⟨_, rfl⟩
  refine Ok_loop_le (fun j (u : R × R) => u = (t.1 + s * ∑ bc ∈ Ico (M.bptr.get i) j, g 0 bc,
    t.2 + s * ∑ bc ∈ Ico (M.bptr.get i) j, g 1 bc)) hm (by simp) ?_ ?_
  · rintro j u k1 k2 rfl
    obtain ⟨b1, b2, b3⟩ := blk_bounds h hi k2 hx
    rw [hr, hc] at b2
    rw [hc] at b3
    simp only [Ok_bind, Ok_rd, Ok_opMul, Ok_pure]
    refine ⟨by omega, by omega, by omega, by omega, by omega, by omega, by omega, by omega, by omega, ?_⟩
    rw [sum_Ico_succ_top k1, sum_Ico_succ_top k1]
    simp only [hg, hop, hr, hc, sum_range_succ, sum_range_zero]
    ext <;> simp <;> ring
  · rintro u rfl
    simp only [hg, blkDot]

theorem accBsr3_spec (hop : ∀ t u, op t u = t + s * u) {M : Bsr R} (h : M.WF) (hr : M.bnr = 3) (hc : M.bnc = 3)
    {x i : ℕ} (hi : i < M.nr) {v : Vecs R} (hx : M.nc * M.bnc ≤ (v x).value.size) (t : R × R × R) :
    Ok (accBsr3 op M x i v t) fun t' => t' = (t.1 + s * blkDot M i 0 (v x).value.get,
      t.2.1 + s * blkDot M i 1 (v x).value.get, t.2.2 + s * blkDot M i 2 (v x).value.get) := by
  have := h.bptr.size
  have hm := h.bptr.mono i hi
  unfold accBsr3
  simp only [Ok_bind, Ok_rd]
  refine ⟨by omega, by omega, ?_⟩
  obtain ⟨g, hg⟩ : ∃ g : ℕ → ℕ → R, g = fun r bc => ∑ c ∈ range M.bnc,
    M.value.get (bc * (M.bnr * M.bnc) + c * M.bnr + r) * (v x).value.get (M.bindex.get bc * M.bnc + c) := ⟨_, rfl⟩
  refine Ok_loop_le (fun j (u : R × R × R) => u = (t.1 + s * ∑ bc ∈ Ico (M.bptr.get i) j, g 0 bc,
    t.2.1 + s * ∑ bc ∈ Ico (M.bptr.get i) j, g 1 bc, t.2.2 + s * ∑ bc ∈ Ico (M.bptr.get i) j, g 2 bc)) hm (by simp) ?_ ?_
  · rintro j u k1 k2 rfl
    obtain ⟨b1, b2, b3⟩ := blk_bounds h hi k2 hx
    rw [hr, hc] at b2
    rw [hc] at b3
    simp only [Ok_bind, Ok_rd, Ok_opMul, Ok_pure]
    refine ⟨by omega, by omega, by omega, by omega, by omega, by omega, by omega, by omega, by omega, by omega, by omega,
      by omega, by omega, by omega, by omega, by omega, by omega, by omega, by omega, ?_⟩
    rw [sum_Ico_succ_top k1, sum_Ico_succ_top k1, sum_Ico_succ_top k1]
    simp only [hg, hop, hr, hc, sum_range_succ, sum_range_zero]
    ext <;> simp <;> ring
  · rintro u rfl
    simp only [hg, blkDot]

theorem accBsrN_spec (hop : ∀ t u, op t u = t + s * u) {M : Bsr R} (h : M.WF)
    {x i : ℕ} (hi : i < M.nr) {v : Vecs R} (hx : M.nc * M.bnc ≤ (v x).value.size) {w : Arr R} (hw : w.size = M.bnr) :
    Ok (accBsrN op M x i v w) fun w' => w'.size = M.bnr ∧
      ∀ r, r < M.bnr → w'.get r = w.get r + s * blkDot M i r (v x).value.get := by
  have := h.bptr.size
  have hm := h.bptr.mono i hi
  unfold accBsrN
  simp only [Ok_bind, Ok_rd]
  refine ⟨by omega, by omega, ?_⟩
  obtain ⟨g, hg⟩ : ∃ g : ℕ → ℕ → R, g = fun r bc => ∑ c ∈ range M.bnc,
    M.value.get (bc * (M.bnr * M.bnc) + c * M.bnr + r) * (v x).value.get (M.bindex.get bc * M.bnc + c) := ⟨_, rfl⟩
  refine Ok_loop_le (fun j (u : Arr R) => u.size = M.bnr ∧ ∀ r, r < M.bnr →
    u.get r = w.get r + s * ∑ bc ∈ Ico (M.bptr.get i) j, g r bc) hm ⟨hw, by simp⟩ ?_ ?_
  · rintro j u k1 k2 ⟨u1, u2⟩
    obtain ⟨b1, b2, b3⟩ := blk_bounds h hi k2 hx
    rw [Ok_bind, Ok_rd]
    refine ⟨b1, ?_⟩
    refine Ok_loop_le (fun ii (z : Arr R) => z.size = M.bnr ∧ (∀ r, r < ii → z.get r = u.get r + s * g r j) ∧
      ∀ r, ii ≤ r → z.get r = u.get r) (Nat.zero_le _) ⟨u1, fun r hr => absurd hr (by omega), fun _ _ => rfl⟩ ?_ ?_
    · rintro ii z - hii ⟨z1, z2, z3⟩
      simp only [Ok_bind, Ok_rd]
      refine ⟨by omega, ?_⟩
      refine Ok_loop_sum' (fun c => s * (M.value.get (j * (M.bnr * M.bnc) + c * M.bnr + ii) *
        (v x).value.get (M.bindex.get j * M.bnc + c))) (fun c t _ c2 => ?_) ?_
      · have h3 := blk_le c2 hii
        have e : M.bnc * M.bnr = M.bnr * M.bnc := Nat.mul_comm _ _
        simp only [Ok_opMul]
        exact ⟨by omega, by omega, hop _ _⟩
      · rw [Ok_wr]
        refine ⟨by omega, by rw [Arr.set_size]; exact z1, fun r hr => ?_, fun r hr => ?_⟩
        · rw [Arr.set_get]
          split
          · next e =>
            subst e
            rw [z3 r le_rfl, hg, mul_sum, sum_Ico_zero]
          · exact z2 r (by omega)
        · rw [Arr.set_get_ne _ _ (by omega)]; exact z3 r (by omega)
    · rintro z ⟨z1, z2, -⟩
      refine ⟨z1, fun r hr => ?_⟩
      rw [z2 r hr, u2 r hr, sum_Ico_succ_top k1]
      ring
  · rintro u ⟨u1, u2⟩
    refine ⟨u1, fun r hr => ?_⟩
    rw [u2 r hr, hg]; rfl

/-- one statement `x[p] = …` -/
theorem Ok_stVec {st : R → R → R} {x p : ℕ} {t : R} {h : Vecs R} {Q : Vecs R → Prop} (hp : p < (h x).value.size)
    (hq : ∀ h', BlkUpd h x p 1 (fun _ => st ((h x).value.get p) t) h' → Q h') : Ok (stVec st x p t h) Q := by
  unfold stVec
  simp only [Ok_bind, Ok_vrd, Ok_vwr]
  refine ⟨hp, hp, hq _ ⟨fun w hw => if_neg hw, by simp, by simp, fun r hr => ?_, fun j hj => ?_⟩⟩
  · obtain rfl : r = 0 := by omega
    simp
  · simp only [if_true]
    exact Arr.set_get_ne _ _ (by omega)

theorem BlkUpd.nil (h : Vecs R) (x o : ℕ) (f : ℕ → R) : BlkUpd h x o 0 f h :=
  ⟨fun _ _ => rfl, rfl, rfl, fun r hr => absurd hr (by omega), fun _ _ => rfl⟩

/-- one more element -/
theorem BlkUpd.snoc {h h1 h2 : Vecs R} {x o b p : ℕ} {f g : ℕ → R} (a : BlkUpd h x o b f h1) (hp : p = o + b)
    (c : BlkUpd h1 x p 1 g h2) (hg : g 0 = f b) : BlkUpd h x o (b + 1) f h2 := by
  subst hp
  refine ⟨fun w hw => by rw [c.other w hw, a.other w hw], by rw [c.len, a.len], by rw [c.size, a.size], fun r hr => ?_,
    fun j hj => ?_⟩
  · by_cases e : r = b
    · subst e; rw [← hg]; exact c.val 0 (by omega)
    · rw [c.rest _ (by omega), a.val r (by omega)]
  · rw [c.rest _ (by omega), a.rest _ (by omega)]

/-- what block row `i` of the solves does -/
theorem solveRowBsr_spec (hop : ∀ t u, op t u = t + s * u) (st : R → R → R) {ini : ℕ → Option R} {iv : ℕ → R}
    (junk : ℕ → R) {M : Bsr R} (h : M.WF) (hsq : M.bnr = M.bnc) {wd : Arr R} (hwd : M.nr * (M.bnr * M.bnr) ≤ wd.size)
    {x i : ℕ} (hi : i < M.nr) {v : Vecs R} (hx : M.nc * M.bnc ≤ (v x).value.size) (hx2 : M.nr * M.bnr ≤ (v x).value.size)
    (hini : ∀ r, r < M.bnr → ini r = some (iv r)) :
    Ok (solveRowBsr op st ini junk M wd x i v) (BlkUpd v x (i * M.bnr) M.bnr fun r =>
      st ((v x).value.get (i * M.bnr + r)) (∑ c ∈ range M.bnr, wd.get (i * (M.bnr * M.bnr) + c * M.bnr + r) *
        (iv c + s * blkDot M i c (v x).value.get))) := by
  have hbpos := h.hbr
  have w1 := Nat.mul_le_mul_right (M.bnr * M.bnr) (Nat.succ_le_of_lt hi)
  have w2 := Nat.mul_le_mul_right M.bnr (Nat.succ_le_of_lt hi)
  rw [Nat.succ_mul] at w1 w2
  obtain ⟨dt, hdt⟩ : ∃ dt : ℕ → R, dt = fun r => blkDot M i r (v x).value.get := ⟨_, rfl⟩
  have hdt' : ∀ r, blkDot M i r (v x).value.get = dt r := fun r => by rw [hdt]
  simp only [hdt']
  unfold solveRowBsr
  split
  · next hb =>
    rw [hb] at w1 w2 hwd hx2
    rw [hini 0 (by omega), Ok_bind, Ok_some, Ok_bind]
    refine (accBsr1_spec hop h hb (by omega) hi hx _).mono ?_
    rintro _ rfl
    rw [Ok_bind, Ok_rd]
    refine ⟨by omega, Ok_stVec (by omega) fun h' hh => ?_⟩
    rw [hb]
    refine (BlkUpd.nil v x (i * 1) _).snoc (by omega) hh ?_
    simp [hdt']
  · next hb =>
    rw [hb] at w1 w2 hwd hx2
    rw [hini 0 (by omega), Ok_bind, Ok_some, hini 1 (by omega), Ok_bind, Ok_some, Ok_bind]
    refine (accBsr2_spec hop h hb (by omega) hi hx _).mono ?_
    rintro _ rfl
    simp only [Ok_bind, Ok_rd, hdt']
    refine ⟨by omega, by omega, Ok_stVec (by omega) fun h1 hh1 => ⟨by omega, by omega, Ok_stVec (by rw [hh1.size]; omega)
      fun h2 hh2 => ?_⟩⟩
    rw [hb]
    refine ((BlkUpd.nil v x (i * 2) _).snoc (by omega) hh1 ?_).snoc (by omega) hh2 ?_
    · simp [sum_range_succ, Nat.mul_comm 4 i]
    · rw [hh1.rest _ (by omega)]
      simp [sum_range_succ, Nat.mul_comm 4 i]
  · next hb =>
    rw [hb] at w1 w2 hwd hx2
    rw [hini 0 (by omega), Ok_bind, Ok_some, hini 1 (by omega), Ok_bind, Ok_some, hini 2 (by omega), Ok_bind, Ok_some,
      Ok_bind]
    refine (accBsr3_spec hop h hb (by omega) hi hx _).mono ?_
    rintro _ rfl
    simp only [Ok_bind, Ok_rd, hdt']
    refine ⟨by omega, by omega, by omega, Ok_stVec (by omega) fun h1 hh1 => ⟨by omega, by omega, by omega,
      Ok_stVec (by rw [hh1.size]; omega) fun h2 hh2 => ⟨by omega, by omega, by omega,
      Ok_stVec (by rw [hh2.size, hh1.size]; omega) fun h3 hh3 => ?_⟩⟩⟩
    rw [hb]
    refine (((BlkUpd.nil v x (i * 3) _).snoc (by omega) hh1 ?_).snoc (by omega) hh2 ?_).snoc (by omega) hh3 ?_
    · simp [sum_range_succ, Nat.mul_comm 9 i]
    · rw [hh1.rest _ (by omega)]
      simp [sum_range_succ, Nat.mul_comm 9 i]
    · rw [hh2.rest _ (by omega), hh1.rest _ (by omega)]
      simp [sum_range_succ, Nat.mul_comm 9 i]
  · rw [Ok_bind]
    refine Ok_loop_le (fun j (u : Arr R) => u.size = M.bnr ∧ ∀ r, r < j → u.get r = iv r) (Nat.zero_le _)
      ⟨by simp, fun r hr => absurd hr (by omega)⟩ ?_ ?_
    · rintro j u - hj ⟨u1, u2⟩
      rw [hini j hj, Ok_bind, Ok_some, Ok_wr]
      refine ⟨by omega, by rw [Arr.set_size]; exact u1, fun r hr => ?_⟩
      rw [Arr.set_get]
      split
      · next e => rw [e]
      · exact u2 r (by omega)
    · rintro u ⟨u1, u2⟩
      rw [Ok_bind]
      refine (accBsrN_spec hop h hi hx u1).mono ?_
      rintro w ⟨z1, z2⟩
      refine Ok_loop_le (fun ii (h' : Vecs R) => BlkUpd v x (i * M.bnr) ii (fun r =>
        st ((v x).value.get (i * M.bnr + r)) (∑ c ∈ range M.bnr, wd.get (i * (M.bnr * M.bnr) + c * M.bnr + r) *
        (iv c + s * dt c))) h') (Nat.zero_le _) (BlkUpd.nil _ _ _ _) ?_ fun _ hh => hh
      rintro ii h' - hii hh
      rw [Ok_bind]
      refine Ok_loop_sum' (fun c => wd.get (i * (M.bnr * M.bnr) + c * M.bnr + ii) * (iv c + s * dt c))
        (fun c t _ c2 => ?_) ?_
      · rw [← hsq] at c2
        have h3 := blk_le c2 hii
        simp only [Ok_bind, Ok_rd, Ok_pure, ← hsq]
        refine ⟨by omega, by omega, ?_⟩
        rw [z2 c c2, u2 c c2, hdt']
      · refine Ok_stVec (by rw [hh.size]; omega) fun h2 hh2 => hh.snoc rfl hh2 ?_
        simp only [zero_add, ← hsq]
        rw [hh.rest _ (by omega), sum_Ico_zero]

end
end Lis
