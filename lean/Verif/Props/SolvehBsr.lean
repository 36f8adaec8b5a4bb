import Verif.Lemmas.SolvehBsr
import Verif.Props.SolveBsr

/-!
# C67: conjugate transpose solves with a split BSR matrix; `lis_psolveh` of SSOR on a BSR matrix
-/

namespace Lis
open Finset
variable {R : Type}

section
variable [CommRing R] [StarRing R]

omit [StarRing R] in
theorem sum_one_block {nr b I : ℕ} (hI : I < nr) (f g : ℕ → R) :
    ∑ j ∈ range (nr * b), f j * (if j / b = I then g (j % b) else 0) = ∑ r ∈ range b, f (I * b + r) * g r := by
  rw [sum_range_blocks, sum_eq_single I]
  · refine sum_congr rfl fun c hc => ?_
    rw [mem_range] at hc
    rw [mul_add_div' hc, mul_add_mod'' hc, if_pos rfl]
  · intro p _ hp
    refine sum_eq_zero fun c hc => ?_
    rw [mem_range] at hc
    rw [mul_add_div' hc, if_neg hp, mul_zero]
  · intro hh; simp at hh; omega

theorem BlockInv.cancelH {b nr : ℕ} {d wd : Arr R} (h : BlockInv b nr d wd) {I : ℕ} (hI : I < nr) {r : ℕ} (hr : r < b)
    (u : ℕ → R) : ∑ c ∈ range b, star (d.get (I * (b * b) + r * b + c)) * wdH wd b I u c = u (I * b + r) := by
  unfold wdH
  have e : ∀ c ∈ range b, star (d.get (I * (b * b) + r * b + c)) *
      (∑ k ∈ range b, star (wd.get (I * (b * b) + c * b + k)) * u (I * b + k)) =
      ∑ k ∈ range b, star (wd.get (I * (b * b) + c * b + k) * d.get (I * (b * b) + r * b + c)) * u (I * b + k) := by
    intro c _
    rw [mul_sum]
    exact sum_congr rfl fun k _ => by rw [star_mul, mul_assoc]
  rw [sum_congr rfl e, sum_comm]
  have e2 : ∀ k ∈ range b, ∑ c ∈ range b, star (wd.get (I * (b * b) + c * b + k) * d.get (I * (b * b) + r * b + c)) *
      u (I * b + k) = if r = k then u (I * b + k) else 0 := by
    intro k hk
    rw [← sum_mul, ← star_sum, (h I hI k r (mem_range.1 hk) hr).2]
    by_cases hkr : k = r
    · rw [if_pos hkr, if_pos hkr.symm, star_one, one_mul]
    · rw [if_neg hkr, if_neg (fun e => hkr e.symm), star_zero, zero_mul]
  rw [sum_congr rfl e2, sum_ite_eq, if_pos (mem_range.2 hr)]

open Classical in
/-- a sweep that has processed the block rows in `P` -/
structure ScSt (nr b : ℕ) (store : Bool) (E Dm : ℕ → ℕ → R) (y0 : ℕ → R) (P : ℕ → Prop) (v t : ℕ → R) : Prop where
  zero : ∀ j, j < nr * b → ¬ P (j / b) → t j = 0
  val : ∀ a, a < nr * b → v a = if P (a / b) ∧ store = true then t a else y0 a - ∑ j ∈ range (nr * b), star (E j a) * t j
  eq : ∀ a, a < nr * b → P (a / b) →
    ∑ j ∈ range (nr * b), star (Dm j a) * t j = y0 a - ∑ j ∈ range (nr * b), star (E j a) * t j

theorem ScSt.step {nr b : ℕ} {store : Bool} {E : ℕ → ℕ → R} {y0 : ℕ → R} {P P' : ℕ → Prop} {v v' t : ℕ → R}
    {d wd : Arr R} (hb : 0 < b) (hd : BlockInv b nr d wd) (s : ScSt nr b store E (blockDiag b d) y0 P v t) {I : ℕ} (hI : I < nr)
    (hP : ¬ P I) (hP' : ∀ K, P' K ↔ P K ∨ K = I)
    (hE : ∀ j a, j < nr * b → a < nr * b → j / b = I → (P (a / b) ∨ a / b = I) → E j a = 0)
    (hv : ∀ a, a < nr * b → v' a = (if I * b ≤ a ∧ a < I * b + b then (if store then wdH wd b I v (a - I * b) else v a)
      else v a) - ∑ r ∈ range b, star (E (I * b + r) a) * wdH wd b I v r) :
    ScSt nr b store E (blockDiag b d) y0 P' v' fun j => if j / b = I then wdH wd b I v (j % b) else t j := by
  classical
  have hcan := fun (r : ℕ) (hr : r < b) => hd.cancelH hI hr v
  obtain ⟨g, hg⟩ : ∃ g, wdH wd b I v = g := ⟨_, rfl⟩
  simp only [hg] at hv hcan ⊢
  -- contribution of the new block
  have hsum : ∀ f : ℕ → R, ∑ j ∈ range (nr * b), f j * (if j / b = I then g (j % b) else t j) =
      ∑ j ∈ range (nr * b), f j * t j + ∑ r ∈ range b, f (I * b + r) * g r := by
    intro f
    rw [← sum_one_block hI, ← sum_add_distrib]
    refine sum_congr rfl fun j hj => ?_
    rw [mem_range] at hj
    by_cases e : j / b = I
    · rw [if_pos e, if_pos e, s.zero j hj (by rw [e]; exact hP)]; ring
    · rw [if_neg e, if_neg e]; ring
  have hnew : ∀ a, a < nr * b → (P (a / b) ∨ a / b = I) → ∑ r ∈ range b, star (E (I * b + r) a) * g r = 0 := by
    intro a ha h
    refine sum_eq_zero fun r hr => ?_
    rw [mem_range] at hr
    rw [hE _ a (blk_le hI hr) ha (mul_add_div' hr) h, star_zero, zero_mul]
  refine ⟨fun j hj hn => ?_, fun a ha => ?_, fun a ha hp => ?_⟩
  · rw [hP'] at hn
    push Not at hn
    rw [if_neg hn.2, s.zero j hj hn.1]
  · rw [hv a ha, hsum]
    by_cases e : a / b = I
    · rw [if_pos ((div_iff hb).2 e), hnew a ha (Or.inr e), sub_zero, add_zero]
      cases store
      · simp only [Bool.false_eq_true, and_false, if_false]
        rw [s.val a ha, if_neg (by simp)]
      · simp only [if_true]
        rw [if_pos ⟨(hP' _).2 (Or.inr e), trivial⟩, if_pos e, ← sub_div e]
    · rw [if_neg (fun h => e ((div_iff hb).1 h)), s.val a ha]
      by_cases hp : P (a / b) ∧ store = true
      · rw [if_pos hp, if_pos ⟨(hP' _).2 (Or.inl hp.1), hp.2⟩, if_neg e, hnew a ha (Or.inl hp.1), sub_zero]
      · rw [if_neg hp, if_neg (fun h => hp ⟨((hP' _).1 h.1).resolve_right e, h.2⟩)]
        ring
  · rw [hP'] at hp
    rw [hsum, hsum, hnew a ha hp, add_zero]
    by_cases e : a / b = I
    · have hz : ∑ j ∈ range (nr * b), star (blockDiag b d j a) * t j = 0 := by
        refine sum_eq_zero fun j hj => ?_
        rw [mem_range] at hj
        by_cases e' : j / b = I
        · rw [s.zero j hj (by rw [e']; exact hP), mul_zero]
        · rw [blockDiag, if_neg (by rw [e]; exact e'), star_zero, zero_mul]
      have hlt : a % b < b := Nat.mod_lt _ hb
      rw [hz, zero_add]
      have := hcan _ hlt
      have ha' : I * b + a % b = a := by rw [← e]; exact div_mod_eq a b
      rw [ha', s.val a ha, if_neg (fun h => hP (e ▸ h.1))] at this
      rw [← this]
      refine sum_congr rfl fun c hc => ?_
      rw [mem_range] at hc
      rw [blockDiag, mul_add_div' hc, if_pos e.symm, mul_add_mod'' hc]
    · have hz : ∑ r ∈ range b, star (blockDiag b d (I * b + r) a) * g r = 0 := by
        refine sum_eq_zero fun r hr => ?_
        rw [mem_range] at hr
        rw [blockDiag, mul_add_div' hr, if_neg (fun h => e h.symm), star_zero, zero_mul]
      rw [hz, add_zero]
      exact s.eq a ha (hp.resolve_right e)

/-- the effect of one block row, as far as a sweep is concerned -/
def RowH (nr b : ℕ) (store : Bool) (E : ℕ → ℕ → R) (wd : Arr R) (x i : ℕ) (v v' : Vecs R) : Prop :=
  OnlyChanged v x (nr * b) v' ∧ ∀ a, a < nr * b → (v' x).value.get a =
    (if i * b ≤ a ∧ a < i * b + b then (if store then wdH wd b i (v x).value.get (a - i * b) else (v x).value.get a)
      else (v x).value.get a) - ∑ r ∈ range b, star (E (i * b + r) a) * wdH wd b i (v x).value.get r

theorem sweepHUp {nr b x : ℕ} {store : Bool} {E : ℕ → ℕ → R} {d wd : Arr R} (hb : 0 < b) (hd : BlockInv b nr d wd)
    (hE : ∀ i j, i < nr * b → j / b ≤ i / b → E i j = 0) {h0 : Vecs R} {body : ℕ → Vecs R → Option (Vecs R)}
    (hbody : ∀ i h, i < nr → OnlyChanged h0 x (nr * b) h → Ok (body i h) (RowH nr b store E wd x i h)) :
    Ok (loop 0 nr h0 body) fun h => OnlyChanged h0 x (nr * b) h ∧
      ∃ t, ScSt nr b store E (blockDiag b d) (h0 x).value.get (fun K => K < nr) (h x).value.get t := by
  refine Ok_loop_le (fun i h => OnlyChanged h0 x (nr * b) h ∧
      ∃ t, ScSt nr b store E (blockDiag b d) (h0 x).value.get (fun K => K < i) (h x).value.get t) (Nat.zero_le _)
    ⟨OnlyChanged.refl _ _ _, fun _ => 0, ⟨fun _ _ _ => rfl, fun a _ => by simp, fun a _ hp => absurd hp (Nat.not_lt_zero _)⟩⟩ ?_
    fun _ hh => hh
  rintro i h - hi ⟨h1, t, h2⟩
  refine (hbody i h hi h1).mono ?_
  rintro h' ⟨g1, g2⟩
  refine ⟨h1.trans g1, _, h2.step hb hd hi (by beta_reduce; omega) (fun K => by beta_reduce; omega)
      (fun j a hj ha e hp => hE j a hj (by beta_reduce at hp; omega)) g2⟩

theorem sweepHDown {nr b x : ℕ} {store : Bool} {E : ℕ → ℕ → R} {d wd : Arr R} (hb : 0 < b) (hd : BlockInv b nr d wd)
    (hE : ∀ i j, i < nr * b → i / b ≤ j / b → E i j = 0) {h0 : Vecs R} {body : ℕ → Vecs R → Option (Vecs R)}
    (hbody : ∀ i h, i < nr → OnlyChanged h0 x (nr * b) h → Ok (body i h) (RowH nr b store E wd x i h)) :
    Ok (loopDown 0 nr h0 body) fun h => OnlyChanged h0 x (nr * b) h ∧
      ∃ t, ScSt nr b store E (blockDiag b d) (h0 x).value.get (fun K => K < nr) (h x).value.get t := by
  refine Ok_loopDown (fun i h => OnlyChanged h0 x (nr * b) h ∧
      ∃ t, ScSt nr b store E (blockDiag b d) (h0 x).value.get (fun K => i ≤ K ∧ K < nr) (h x).value.get t) (Nat.zero_le _)
    ⟨OnlyChanged.refl _ _ _, fun _ => 0, ⟨fun _ _ _ => rfl, fun a ha => ?_, fun a _ hp => by beta_reduce at hp; omega⟩⟩ ?_
    ?_
  · rw [if_neg (by omega)]; simp
  · rintro i h - hi ⟨h1, t, h2⟩
    refine (hbody i h hi h1).mono ?_
    rintro h' ⟨g1, g2⟩
    refine ⟨h1.trans g1, _, h2.step hb hd hi (by beta_reduce; omega) (fun K => by beta_reduce; omega)
      (fun j a hj ha e hp => hE j a hj (by beta_reduce at hp; omega)) g2⟩
  · rintro h ⟨h1, t, h2⟩
    refine ⟨h1, t, ⟨fun j hj hn => h2.zero j hj (by beta_reduce at hn ⊢; omega), fun a ha => ?_,
      fun a ha hp => h2.eq a ha ⟨Nat.zero_le _, hp⟩⟩⟩
    have := div_lt_of ha
    have e := h2.val a ha
    beta_reduce at e
    rw [e]
    by_cases q : store = true
    · rw [if_pos ⟨⟨Nat.zero_le _, this⟩, q⟩, if_pos ⟨this, q⟩]
    · rw [if_neg (fun hh => q hh.2), if_neg (fun hh => q hh.2)]

/-- a sweep that stores its result solves the system -/
theorem ScSt.solves {nr b : ℕ} {E Dm : ℕ → ℕ → R} {y0 v t : ℕ → R} (s : ScSt nr b true E Dm y0 (fun K => K < nr) v t) :
    SolvesTriMH (nr * b) Dm E v y0 := by
  have hv : ∀ a, a < nr * b → v a = t a := fun a ha => by rw [s.val a ha, if_pos ⟨div_lt_of ha, rfl⟩]
  intro i hi
  have := s.eq i hi (div_lt_of hi)
  have e : ∀ M : ℕ → ℕ → R, ∑ j ∈ range (nr * b), star (M j i) * v j = ∑ j ∈ range (nr * b), star (M j i) * t j :=
    fun M => sum_congr rfl fun j hj => by rw [hv j (mem_range.1 hj)]
  rw [e, e, this]
  ring

/-- a sweep that does not store it leaves `Dᴴ` times the solution -/
theorem ScSt.half {nr b : ℕ} {E Dm : ℕ → ℕ → R} {y0 v t : ℕ → R} (s : ScSt nr b false E Dm y0 (fun K => K < nr) v t) :
    SolvesTriMH (nr * b) Dm E t y0 ∧ ∀ i, i < nr * b → v i = ∑ j ∈ range (nr * b), star (Dm j i) * t j := by
  refine ⟨fun i hi => ?_, fun i hi => ?_⟩
  · rw [s.eq i hi (div_lt_of hi)]; ring
  · rw [s.val i hi, if_neg (by simp), s.eq i hi (div_lt_of hi)]

omit [StarRing R] in
theorem Bsr.entry_beyond {M : Bsr R} (h : M.WF) {i j : ℕ} (hi : i < M.nr * M.bnr) (hj : M.nc * M.bnc ≤ j) :
    M.entry i j = 0 := by
  unfold Bsr.entry
  refine sum_eq_zero fun bc hbc => ?_
  rw [mem_Ico] at hbc
  have := h.idx bc (h.bptr.lt_nnz (div_lt_of hi) hbc.2)
  rw [if_neg]
  intro e
  rw [e] at this
  have := lt_of_div h.hbc this
  omega

theorem rowH_of {c co cw : R → R} (hc : ∀ a, c a = star a) {M : Bsr R} {nr b : ℕ} (hnr : M.nr = nr) (hnc : M.nc = nr)
    (hbr : M.bnr = b) (hbc : M.bnc = b) (hco : b = 2 ∨ b = 3 → ∀ a, co a = star a)
    (hcw : b = 1 → ∀ a, cw a = star a) {store reload : Bool} (junk : ℕ → R) (h : M.WF) {wd : Arr R}
    (hwd : nr * (b * b) ≤ wd.size) {x i : ℕ} (hrel : reload = true → store = true ∧
      ∀ bc, M.bptr.get i ≤ bc → bc < M.bptr.get (i + 1) → M.bindex.get bc ≠ i)
    (hi : i < nr) {v : Vecs R} (hx : nr * b ≤ (v x).value.size) :
    Ok (solvehRowBsr c co cw store reload junk M wd x i v) (RowH nr b store M.entry wd x i v) := by
  subst hnr hbr
  refine (solvehRowBsr_spec hc hco hcw junk h hbc.symm hwd hrel hi (by rw [hnc, hbc]; exact hx) hx).mono fun v' d => ?_
  refine ⟨⟨d.other, d.len, d.size, fun j hj => ?_⟩, fun a _ => d.val a⟩
  rw [d.val, sum_eq_zero fun r hr => ?_, sub_zero]
  · split
    · next hp => have := Nat.mul_le_mul_right M.bnr (show i + 1 ≤ M.nr from hi)
                 rw [Nat.add_mul, Nat.one_mul] at this
                 omega
    · rfl
  · rw [M.entry_beyond h (blk_le hi (mem_range.1 hr)) (by rw [hnc, hbc]; exact hj), star_zero, zero_mul]

/-- right side of the conjugate transpose solves: `lis_vector_copy` copies `n` elements, the padding of `x` stays -/
def rhsOf (n : ℕ) (h : Vecs R) (b x : ℕ) (j : ℕ) : R := if j < n then (h b).value.get j else (h x).value.get j

/-- no stored block of `M` is a diagonal block -/
def Bsr.NoSelf (M : Bsr R) : Prop :=
  ∀ i, i < M.nr → ∀ bc, M.bptr.get i ≤ bc → bc < M.bptr.get (i + 1) → M.bindex.get bc ≠ i

omit [CommRing R] [StarRing R] in
theorem copyRhs {n N b x : ℕ} {h h1 : Vecs R} (hxn : (h x).n = n) (hN : n ≤ N)
    (a : Assigned h x (fun i => h.el b i) h1) : OnlyChanged h x N h1 ∧ (h1 x).value.get = rhsOf n h b x := by
  have o := a.only
  refine ⟨⟨o.other, o.len, o.size, fun j hj => o.rest j (by omega)⟩, funext fun j => ?_⟩
  unfold rhsOf
  split
  · next hj => exact (a.get j).trans (if_pos (by rw [hxn]; exact hj))
  · next hj => exact o.rest j (by omega)

/-- **C67 (LOWER, conjugate transpose).** `lis_matrix_solveh` solves `(d+U)ᴴ x = b`; in the complex build only for block
sizes other than 2 and 3. -/
theorem solvehLowerBsr_spec (junk : ℕ → R) {A : SplitBsr R} (hA : A.WF) (hs : A.Strict) (hns : A.U.NoSelf)
    (hreal : A.b = 2 ∨ A.b = 3 → ∀ a : R, star a = a) {d wd : Arr R}
    (hw : A.nr * (A.b * A.b) ≤ wd.size) (hd : BlockInv A.b A.nr d wd) {b x : ℕ} {h : Vecs R}
    (hbn : (h b).n = A.n) (hxn : (h x).n = A.n) (hb : h.WF b) (hx : A.nr * A.b ≤ (h x).value.size) :
    Ok (solvehLowerBsr star junk A wd b x h) fun h' => OnlyChanged h x (A.nr * A.b) h' ∧
      SolvesTriMH (A.nr * A.b) (blockDiag A.b d) A.U.entry (h' x).value.get (rhsOf A.n h b x) := by
  obtain ⟨-, l2, l3, l4, l5⟩ := hA.u
  have hn := hA.hn
  have hx' : h.WF x := by show (h x).n ≤ _; omega
  unfold solvehLowerBsr
  rw [Ok_bind]
  refine (vectorCopy_spec h b x hb hx' (by omega)).mono ?_
  rintro ⟨e, h1⟩ ⟨-, a⟩
  simp only at a
  obtain ⟨o1, o2⟩ := copyRhs hxn hn a
  refine (sweepHUp (x := x) (store := true) (E := A.U.entry) hA.hb hd hs.up fun i h' hi hc => ?_).mono ?_
  · exact rowH_of (fun _ => rfl) l2 l3 l4 l5 (fun hh a => (hreal hh a).symm) (fun _ _ => rfl) junk hA.uwf hw
      (fun _ => ⟨rfl, hns i (by omega)⟩) hi (by rw [other_size hc x, other_size o1 x]; exact hx)
  · rintro h' ⟨g1, t, g2⟩
    rw [o2] at g2
    exact ⟨o1.trans g1, g2.solves⟩

/-- **C67 (UPPER, conjugate transpose).** `lis_matrix_solveh` solves `(d+L)ᴴ x = b`; in the complex build only for block
sizes other than 1 and 2. -/
theorem solvehUpperBsr_spec (junk : ℕ → R) {A : SplitBsr R} (hA : A.WF) (hs : A.Strict) (hns : A.L.NoSelf)
    (hreal : A.b = 1 ∨ A.b = 2 → ∀ a : R, star a = a) {d wd : Arr R}
    (hw : A.nr * (A.b * A.b) ≤ wd.size) (hd : BlockInv A.b A.nr d wd) {b x : ℕ} {h : Vecs R}
    (hbn : (h b).n = A.n) (hxn : (h x).n = A.n) (hb : h.WF b) (hx : A.nr * A.b ≤ (h x).value.size) :
    Ok (solvehUpperBsr star junk A wd b x h) fun h' => OnlyChanged h x (A.nr * A.b) h' ∧
      SolvesTriMH (A.nr * A.b) (blockDiag A.b d) A.L.entry (h' x).value.get (rhsOf A.n h b x) := by
  obtain ⟨-, l2, l3, l4, l5⟩ := hA.l
  have hn := hA.hn
  have hx' : h.WF x := by show (h x).n ≤ _; omega
  unfold solvehUpperBsr
  rw [Ok_bind]
  refine (vectorCopy_spec h b x hb hx' (by omega)).mono ?_
  rintro ⟨e, h1⟩ ⟨-, a⟩
  simp only at a
  obtain ⟨o1, o2⟩ := copyRhs hxn hn a
  refine (sweepHDown (x := x) (store := true) (E := A.L.entry) hA.hb hd hs.low fun i h' hi hc => ?_).mono ?_
  · refine rowH_of (fun _ => rfl) l2 l3 l4 l5 (fun hh a => ?_) (fun hh a => (hreal (Or.inl hh) a).symm) junk hA.lwf hw
      (fun _ => ⟨rfl, hns i (by omega)⟩) hi (by rw [other_size hc x, other_size o1 x]; exact hx)
    rcases hh with hh | hh
    · rw [if_neg (by omega)]; exact (hreal (Or.inr hh) a).symm
    · rw [if_pos (by omega)]
  · rintro h' ⟨g1, t, g2⟩
    rw [o2] at g2
    exact ⟨o1.trans g1, g2.solves⟩

/-- **C67 (SSOR, conjugate transpose).** `((d+L) d⁻¹ (d+U))ᴴ x = b`, for every block size, real and complex. -/
theorem solvehSsorBsr_spec (junk : ℕ → R) {A : SplitBsr R} (hA : A.WF) (hs : A.Strict) {d wd : Arr R}
    (hw : A.nr * (A.b * A.b) ≤ wd.size) (hd : BlockInv A.b A.nr d wd) {b x : ℕ} {h : Vecs R}
    (hbn : (h b).n = A.n) (hxn : (h x).n = A.n) (hb : h.WF b) (hx : A.nr * A.b ≤ (h x).value.size) :
    Ok (solvehSsorBsr star junk A wd b x h) fun h' => OnlyChanged h x (A.nr * A.b) h' ∧
      SolvesSsorMH (A.nr * A.b) (blockDiag A.b d) A.L.entry A.U.entry (h' x).value.get (rhsOf A.n h b x) := by
  obtain ⟨-, l2, l3, l4, l5⟩ := hA.l
  obtain ⟨-, u2, u3, u4, u5⟩ := hA.u
  have hn := hA.hn
  have hx' : h.WF x := by show (h x).n ≤ _; omega
  unfold solvehSsorBsr
  rw [Ok_bind]
  refine (vectorCopy_spec h b x hb hx' (by omega)).mono ?_
  rintro ⟨e, h1⟩ ⟨-, a⟩
  simp only at a
  obtain ⟨o1, o2⟩ := copyRhs hxn hn a
  rw [Ok_bind]
  refine (sweepHUp (x := x) (store := false) (E := A.U.entry) hA.hb hd hs.up fun i h' hi hc => ?_).mono ?_
  · exact rowH_of (fun _ => rfl) u2 u3 u4 u5 (fun _ _ => rfl) (fun _ _ => rfl) junk hA.uwf hw
      (fun hh => by simp at hh) hi (by rw [other_size hc x, other_size o1 x]; exact hx)
  rintro h2 ⟨g1, t, g2⟩
  rw [o2] at g2
  obtain ⟨k1, k2⟩ := g2.half
  refine (sweepHDown (x := x) (store := true) (E := A.L.entry) hA.hb hd hs.low fun i h' hi hc => ?_).mono ?_
  · exact rowH_of (fun _ => rfl) l2 l3 l4 l5 (fun _ _ => rfl) (fun _ _ => rfl) junk hA.lwf hw
      (fun hh => by simp at hh) hi (by rw [other_size hc x, other_size g1 x, other_size o1 x]; exact hx)
  · rintro h' ⟨q1, t', q2⟩
    refine ⟨(o1.trans g1).trans q1, t, k1, fun i hi => ?_⟩
    rw [q2.solves i hi]
    exact k2 i hi

end

section
variable [Field R] [StarRing R]

omit [StarRing R] in
/-- rows beyond `n` are empty -/
theorem Bsr.entry_padRow {A : Bsr R} (h : A.WF) (hp : A.Padded) {i j : ℕ} (hi : i < A.nr * A.bnr) (hin : A.n ≤ i) :
    A.entry i j = 0 := by
  unfold Bsr.entry
  refine sum_eq_zero fun bc hbc => ?_
  rw [mem_Ico] at hbc
  split
  · next e =>
    exact hp.zero _ (div_lt_of hi) bc hbc.1 hbc.2 _ _ (Nat.mod_lt _ h.hbr) (Nat.mod_lt _ h.hbc)
      (Or.inl (by rw [div_mod_eq]; exact hin))
  · rfl

/-- **C67 (preconditioner, conjugate transpose).** Creating the SSOR preconditioner with `ssor_omega = w` for a matrix in
BSR format and applying it with `lis_psolveh` returns `x` with `((wD+L)(wD)⁻¹(wD+U))ᴴ x = b`. -/
theorem ssorhBsr_spec (junk : ℕ → ℕ → ℕ) (vjunk : ℕ → ℕ → R) (djunk wjunk sjunk : ℕ → R) (gjunk : ℕ → ℕ → R) {w : R}
    (hw : w ≠ 0) {A : Bsr R} (h : A.WF) (hs : A.Square) (hp : A.Padded) (hn : 0 < A.n)
    (hd : ∀ I, I < A.nr → A.DiagOnce I) (hm : A.BlockMinors) (b x : ℕ) {v : Vecs R}
    (hbn : (v b).n = A.n) (hxn : (v x).n = A.n) (hb : v.WF b) (hx : A.nr * A.bnr ≤ (v x).value.size) :
    Ok (ssorhBsr star junk vjunk djunk wjunk sjunk gjunk w A b x v) fun v' => OnlyChanged v x (A.nr * A.bnr) v' ∧
      SolvesSsorMH A.n (fun i j => w * A.diagPart i j) A.lowPart A.upPart (v' x).value.get (v b).value.get := by
  obtain ⟨hnr, hlt, hle⟩ := hs.lt h.hbr hn
  unfold ssorhBsr
  rw [Ok_bind]
  refine ((splitBsr_spec junk vjunk djunk h hs hd).conj
    (splitBsr_parts junk vjunk djunk h hs.blk hs.num)).mono ?_
  rintro S ⟨⟨a1, a2, a3, a4, a5, a6, a7, -⟩, -, -, -, -, b5, b6, b7, -⟩
  rw [Ok_bind, a2, a3, a4]
  refine (diagCopy_spec (by rw [b5, hs.blk]) (by rw [Arr.malloc_size, Nat.mul_comm])).mono ?_
  rintro D ⟨d1, d2, -⟩
  rw [Arr.malloc_size] at d1
  rw [Ok_bind]
  refine (diagScaleBlk_spec w (by rw [d1, Nat.mul_comm])).mono ?_
  rintro E ⟨e1, e2⟩
  rw [Ok_bind]
  refine (invertPart_spec gjunk hw h hs hp hn hm (by rw [e1, d1, Nat.mul_comm]) fun I hI r c hr hc => ?_).mono ?_
  · have h1 : I * (A.bnr * A.bnr) + c * A.bnr + r < A.nr * (A.bnr * A.bnr) := by
      have := blk_le hI (blk_le hc hr)
      omega
    rw [e2, if_pos h1, d2 _ h1]
    have := a7 (I * A.bnr + r) (I * A.bnr + c) (blk_le hI hr)
    unfold blockDiag Bsr.diagPart at this
    rw [mul_add_div' hr, mul_add_div' hc, mul_add_mod'' hr, mul_add_mod'' hc, if_pos rfl, if_pos rfl] at this
    rw [this]
  rintro wd ⟨w1, w2, w3⟩
  have hst : S.Strict := ⟨by rw [a3, a4]; exact a5, by rw [a3, a4]; exact a6⟩
  refine (solvehSsorBsr_spec sjunk a1 hst (by rw [a3, a4, w1, e1, d1, Nat.mul_comm]) (by rw [a3, a4]; exact w2)
    (by rw [a2]; exact hbn) (by rw [a2]; exact hxn) hb (by rw [a3, a4]; exact hx)).mono ?_
  rw [a3, a4]
  rintro v' ⟨g1, y, g2, g3⟩
  have cut : ∀ (f : ℕ → R) (u : ℕ → R), (∀ j, A.n ≤ j → j < A.nr * A.bnr → f j = 0) →
      ∑ j ∈ range (A.nr * A.bnr), star (f j) * u j = ∑ j ∈ range A.n, star (f j) * u j := by
    intro f u hf
    rw [← sum_subset (range_subset_range.2 hle)]
    intro j hj hj'
    rw [mem_range] at hj hj'
    rw [hf j (by omega) hj, star_zero, zero_mul]
  have cutD : ∀ (u : ℕ → R) i, i < A.n →
      ∑ j ∈ range (A.nr * A.bnr), star (blockDiag A.bnr (padOne A.n A.bnr A.nr E) j i) * u j =
      ∑ j ∈ range A.n, star (w * A.diagPart j i) * u j := by
    intro u i hi
    rw [cut (fun j => blockDiag A.bnr (padOne A.n A.bnr A.nr E) j i) u fun j hj hj2 => by
      rw [w3 j i hj2, if_neg (by omega), if_neg (by omega)]]
    refine sum_congr rfl fun j hj => ?_
    rw [mem_range] at hj
    rw [w3 j i (by omega), if_pos hj]
  have cutL : ∀ (u : ℕ → R) i, ∑ j ∈ range (A.nr * A.bnr), star (S.L.entry j i) * u j =
      ∑ j ∈ range A.n, star (A.lowPart j i) * u j := by
    intro u i
    rw [cut (fun j => S.L.entry j i) u fun j hj hj2 => by
      rw [b6 j i hj2, A.entry_padRow h hp hj2 hj, ite_self]]
    refine sum_congr rfl fun j hj => ?_
    rw [mem_range] at hj
    rw [b6 j i (by omega)]; rfl
  have cutU : ∀ (u : ℕ → R) i, ∑ j ∈ range (A.nr * A.bnr), star (S.U.entry j i) * u j =
      ∑ j ∈ range A.n, star (A.upPart j i) * u j := by
    intro u i
    rw [cut (fun j => S.U.entry j i) u fun j hj hj2 => by
      rw [b7 j i hj2, A.entry_padRow h hp hj2 hj, ite_self]]
    refine sum_congr rfl fun j hj => ?_
    rw [mem_range] at hj
    rw [b7 j i (by omega)]; rfl
  refine ⟨g1, y, fun i hi => ?_, fun i hi => ?_⟩
  · have := g2 i (by omega)
    rw [cutD y i hi, cutU y i, rhsOf, if_pos (by rw [a2]; exact hi)] at this
    exact this
  · have := g3 i (by omega)
    beta_reduce at this ⊢
    rwa [cutD _ i hi, cutL _ i, cutD y i hi] at this

end
end Lis
