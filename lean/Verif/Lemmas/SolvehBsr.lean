import Verif.Model.SolvehBsr
import Verif.Lemmas.SolveBsr
import Mathlib.Algebra.Star.BigOperators

/-! Helper lemmas for the conjugate transpose solves with BSR matrices. -/

namespace Lis
open Finset
variable {R : Type}

/-- vector `x` becomes `f`, nothing else changes -/
structure VecIs (h : Vecs R) (x : ℕ) (f : ℕ → R) (h' : Vecs R) : Prop where
  other : ∀ w, w ≠ x → h' w = h w
  len : (h' x).n = (h x).n
  size : (h' x).value.size = (h x).value.size
  val : ∀ a, (h' x).value.get a = f a

section
variable [CommRing R] [StarRing R]

/-- what stored block `bc` subtracts from element `a` -/
def scatTerm (M : Bsr R) (t : ℕ → R) (bc a : ℕ) : R :=
  if a / M.bnc = M.bindex.get bc then
    ∑ c ∈ range M.bnr, star (M.value.get (bc * (M.bnr * M.bnc) + (a % M.bnc) * M.bnr + c)) * t c else 0

/-- what block row `i` subtracts from element `a` -/
theorem scat_entry {M : Bsr R} {i : ℕ} (t : ℕ → R) (a : ℕ) :
    ∑ bc ∈ Ico (M.bptr.get i) (M.bptr.get (i + 1)), scatTerm M t bc a =
      ∑ c ∈ range M.bnr, star (M.entry (i * M.bnr + c) a) * t c := by
  unfold scatTerm Bsr.entry
  have e : ∀ c ∈ range M.bnr, star (∑ bc ∈ Ico (M.bptr.get ((i * M.bnr + c) / M.bnr))
      (M.bptr.get ((i * M.bnr + c) / M.bnr + 1)), if M.bindex.get bc = a / M.bnc then
      M.value.get (bc * (M.bnr * M.bnc) + (a % M.bnc) * M.bnr + (i * M.bnr + c) % M.bnr) else 0) * t c =
      ∑ bc ∈ Ico (M.bptr.get i) (M.bptr.get (i + 1)), (if a / M.bnc = M.bindex.get bc then
        star (M.value.get (bc * (M.bnr * M.bnc) + (a % M.bnc) * M.bnr + c)) * t c else 0) := by
    intro c hc
    rw [mem_range] at hc
    rw [mul_add_div' hc, mul_add_mod'' hc, star_sum, sum_mul]
    refine sum_congr rfl fun bc _ => ?_
    by_cases h : a / M.bnc = M.bindex.get bc
    · rw [if_pos h.symm, if_pos h]
    · rw [if_neg (fun e => h e.symm), if_neg h, star_zero, zero_mul]
  rw [sum_congr rfl e, sum_comm]
  refine sum_congr rfl fun bc _ => ?_
  split
  · rfl
  · rw [sum_const_zero]

/-- blocks subtracted one after the other -/
theorem Ok_scat {M : Bsr R} {x : ℕ} {h : Vecs R} {lo hi : ℕ} (hlo : lo ≤ hi) (t : ℕ → R)
    {body : ℕ → Vecs R → Option (Vecs R)}
    (hbody : ∀ j h', lo ≤ j → j < hi → VecIs h x (fun a => (h x).value.get a - ∑ bc ∈ Ico lo j, scatTerm M t bc a) h' →
      Ok (body j h') (BlkUpd h' x (M.bindex.get j * M.bnc) M.bnc fun r => (h' x).value.get (M.bindex.get j * M.bnc + r) -
        ∑ c ∈ range M.bnr, star (M.value.get (j * (M.bnr * M.bnc) + r * M.bnr + c)) * t c)) (hb : 0 < M.bnc) :
    Ok (loop lo hi h body) (VecIs h x fun a => (h x).value.get a - ∑ bc ∈ Ico lo hi, scatTerm M t bc a) := by
  refine Ok_loop_le (fun j h' => VecIs h x (fun a => (h x).value.get a - ∑ bc ∈ Ico lo j, scatTerm M t bc a) h') hlo
    ⟨fun _ _ => rfl, rfl, rfl, by simp⟩ ?_ fun _ hh => hh
  intro j h' k1 k2 hv
  refine (hbody j h' k1 k2 hv).mono fun h2 hu => ?_
  refine ⟨fun w hw => by rw [hu.other w hw, hv.other w hw], by rw [hu.len, hv.len], by rw [hu.size, hv.size], fun a => ?_⟩
  rw [sum_Ico_succ_top k1, ← sub_sub, ← hv.val a, scatTerm]
  by_cases e : a / M.bnc = M.bindex.get j
  · rw [if_pos e]
    have hlt : a % M.bnc < M.bnc := Nat.mod_lt _ hb
    have ha : M.bindex.get j * M.bnc + a % M.bnc = a := by rw [← e, Nat.mul_comm]; exact Nat.div_add_mod _ _
    have := hu.val (a % M.bnc) hlt
    rwa [ha] at this
  · rw [if_neg e, sub_zero]
    exact hu.rest a fun hh => e ((div_iff hb).1 hh)

variable {c co cw : R → R}

theorem scat1_spec (hc : ∀ a, c a = star a) {M : Bsr R} (h : M.WF) (hr : M.bnr = 1) (hcc : M.bnc = 1)
    {x i : ℕ} (hi : i < M.nr) {v : Vecs R} (hx : M.nc * M.bnc ≤ (v x).value.size) (t : R) {get : Vecs R → Option R}
    (hget : ∀ h', (∀ w, w ≠ x → h' w = v w) → (h' x).value.size = (v x).value.size →
      ((∀ bc, M.bptr.get i ≤ bc → bc < M.bptr.get (i + 1) → M.bindex.get bc ≠ i) →
        (h' x).value.get i = (v x).value.get i) → get h' = some t) :
    Ok (scat1 c M x i get v) (VecIs v x fun a => (v x).value.get a -
      ∑ r ∈ range M.bnr, star (M.entry (i * M.bnr + r) a) * t) := by
  have := h.bptr.size
  unfold scat1
  simp only [Ok_bind, Ok_rd]
  refine ⟨by omega, by omega, ?_⟩
  refine (Ok_scat (h.bptr.mono i hi) (fun _ => t) (fun j h' k1 k2 hv => ?_) h.hbc).mono fun h2 hd =>
    ⟨hd.other, hd.len, hd.size, fun a => by rw [hd.val, scat_entry]⟩
  obtain ⟨b1, b2, b3⟩ := blk_bounds h hi k2 hx
  rw [hr, hcc] at b2
  rw [hcc] at b3
  simp only [Ok_bind, Ok_rd]
  refine ⟨by omega, by omega, ?_⟩
  rw [hget h' hv.other hv.size fun hne => by
    rw [hv.val, sum_eq_zero fun bc hbc => ?_, sub_zero]
    rw [mem_Ico] at hbc
    rw [scatTerm, if_neg]
    rw [hcc, Nat.div_one]
    exact fun e => hne bc hbc.1 (by omega) e.symm, Ok_some]
  refine Ok_stVec (by rw [hv.size]; omega) fun h2 hu => ?_
  rw [hcc]
  refine (BlkUpd.nil h' x _ _).snoc (by omega) hu ?_
  simp [hr, hc]

theorem scat2_spec (hc : ∀ a, c a = star a) (hco : ∀ a, co a = star a) {M : Bsr R} (h : M.WF) (hr : M.bnr = 2)
    (hcc : M.bnc = 2) {x i : ℕ} (hi : i < M.nr) {v : Vecs R} (hx : M.nc * M.bnc ≤ (v x).value.size) (t : ℕ → R) :
    Ok (scat2 c co M x i (t 0, t 1) v) (VecIs v x fun a => (v x).value.get a -
      ∑ r ∈ range M.bnr, star (M.entry (i * M.bnr + r) a) * t r) := by
  have := h.bptr.size
  unfold scat2
  simp only [Ok_bind, Ok_rd]
  refine ⟨by omega, by omega, ?_⟩
  refine (Ok_scat (h.bptr.mono i hi) t (fun j h' k1 k2 hv => ?_) h.hbc).mono fun h2 hd =>
    ⟨hd.other, hd.len, hd.size, fun a => by rw [hd.val, scat_entry]⟩
  obtain ⟨b1, b2, b3⟩ := blk_bounds h hi k2 hx
  rw [hr, hcc] at b2
  rw [hcc] at b3
  simp only [Ok_bind, Ok_rd]
  refine ⟨by omega, by omega, by omega, Ok_stVec (by rw [hv.size]; omega) fun h1 hu1 => ⟨by omega, by omega,
    Ok_stVec (by rw [hu1.size, hv.size]; omega) fun h2 hu2 => ?_⟩⟩
  rw [hcc]
  refine ((BlkUpd.nil h' x _ _).snoc (by omega) hu1 ?_).snoc (by omega) hu2 ?_
  · simp [hr, hc, hco, sum_range_succ]
  · rw [hu1.rest _ (by omega)]
    simp [hr, hc, hco, sum_range_succ]

theorem scat3_spec (hc : ∀ a, c a = star a) (hco : ∀ a, co a = star a) {M : Bsr R} (h : M.WF) (hr : M.bnr = 3)
    (hcc : M.bnc = 3) {x i : ℕ} (hi : i < M.nr) {v : Vecs R} (hx : M.nc * M.bnc ≤ (v x).value.size) (t : ℕ → R) :
    Ok (scat3 c co M x i (t 0, t 1, t 2) v) (VecIs v x fun a => (v x).value.get a -
      ∑ r ∈ range M.bnr, star (M.entry (i * M.bnr + r) a) * t r) := by
  have := h.bptr.size
  unfold scat3
  simp only [Ok_bind, Ok_rd]
  refine ⟨by omega, by omega, ?_⟩
  refine (Ok_scat (h.bptr.mono i hi) t (fun j h' k1 k2 hv => ?_) h.hbc).mono fun h2 hd =>
    ⟨hd.other, hd.len, hd.size, fun a => by rw [hd.val, scat_entry]⟩
  obtain ⟨b1, b2, b3⟩ := blk_bounds h hi k2 hx
  rw [hr, hcc] at b2
  rw [hcc] at b3
  simp only [Ok_bind, Ok_rd]
  refine ⟨by omega, by omega, by omega, by omega, Ok_stVec (by rw [hv.size]; omega) fun h1 hu1 => ⟨by omega, by omega,
    by omega, Ok_stVec (by rw [hu1.size, hv.size]; omega) fun h2 hu2 => ⟨by omega, by omega, by omega,
    Ok_stVec (by rw [hu2.size, hu1.size, hv.size]; omega) fun h3 hu3 => ?_⟩⟩⟩
  rw [hcc]
  refine (((BlkUpd.nil h' x _ _).snoc (by omega) hu1 ?_).snoc (by omega) hu2 ?_).snoc (by omega) hu3 ?_
  · simp [hr, hc, hco, sum_range_succ]
  · rw [hu1.rest _ (by omega)]
    simp [hr, hc, hco, sum_range_succ]
  · rw [hu2.rest _ (by omega), hu1.rest _ (by omega)]
    simp [hr, hc, hco, sum_range_succ]

theorem scatN_spec (hc : ∀ a, c a = star a) {M : Bsr R} (h : M.WF)
    {x i : ℕ} (hi : i < M.nr) {v : Vecs R} (hx : M.nc * M.bnc ≤ (v x).value.size) {w : Arr R} (hw : M.bnr ≤ w.size) :
    Ok (scatN c M x i w v) (VecIs v x fun a => (v x).value.get a -
      ∑ r ∈ range M.bnr, star (M.entry (i * M.bnr + r) a) * w.get r) := by
  have := h.bptr.size
  unfold scatN
  simp only [Ok_bind, Ok_rd]
  refine ⟨by omega, by omega, ?_⟩
  refine (Ok_scat (h.bptr.mono i hi) w.get (fun j h' k1 k2 hv => ?_) h.hbc).mono fun h2 hd =>
    ⟨hd.other, hd.len, hd.size, fun a => by rw [hd.val, scat_entry]⟩
  obtain ⟨b1, b2, b3⟩ := blk_bounds h hi k2 hx
  rw [Ok_bind, Ok_rd]
  refine ⟨by omega, ?_⟩
  refine Ok_loop_le (fun jj h2 => BlkUpd h' x (M.bindex.get j * M.bnc) jj (fun r =>
    (h' x).value.get (M.bindex.get j * M.bnc + r) -
        ∑ c ∈ range M.bnr, star (M.value.get (j * (M.bnr * M.bnc) + r * M.bnr + c)) * w.get c) h2) (Nat.zero_le _)
    (BlkUpd.nil _ _ _ _) ?_ fun _ hh => hh
  intro jj h2 _ hjj hu
  rw [Ok_bind]
  refine Ok_loop_sum' (fun ii => star (M.value.get (j * (M.bnr * M.bnc) + jj * M.bnr + ii)) * w.get ii)
    (fun ii t _ hii => ?_) ?_
  · have h3 := blk_le hjj hii
    have e : M.bnc * M.bnr = M.bnr * M.bnc := Nat.mul_comm _ _
    simp only [Ok_bind, Ok_rd, Ok_pure, hc]
    exact ⟨by omega, by omega, trivial⟩
  · refine Ok_stVec (by rw [hu.size, hv.size]; omega) fun h3 hu3 => hu.snoc rfl hu3 ?_
    rw [hu.rest _ (by omega), zero_add, sum_Ico_zero]

theorem Ok_mulVec {a : Arr R} {p : ℕ} {h : Vecs R} {x q : ℕ} {Q : R → Prop} :
    Ok (mulVec c a p h x q) Q ↔ p < a.size ∧ q < (h x).value.size ∧ Q (c (a.get p) * (h x).value.get q) := by
  unfold mulVec
  simp only [Ok_bind, Ok_rd, Ok_vrd, Ok_pure]

theorem Ok_putVec {store : Bool} {x p : ℕ} {t : R} {h : Vecs R} {Q : Vecs R → Prop} (hp : p < (h x).value.size)
    (hq : ∀ h', BlkUpd h x p 1 (fun _ => if store then t else (h x).value.get p) h' → Q h') :
    Ok (putVec store x p t h) Q := by
  unfold putVec
  cases store
  · simp only [Bool.false_eq_true, if_false, Ok_some]
    refine hq _ ⟨fun _ _ => rfl, rfl, rfl, fun r hr => ?_, fun _ _ => rfl⟩
    obtain rfl : r = 0 := by omega
    simp
  · simp only [if_true, Ok_vwr]
    refine ⟨hp, hq _ ⟨fun w hw => if_neg hw, by simp, by simp, fun r hr => ?_, fun j hj => ?_⟩⟩
    · obtain rfl : r = 0 := by omega
      simp
    · simp only [if_true]
      exact Arr.set_get_ne _ _ (by omega)

/-- conjugate transpose of block `i` of `wd` times `u` -/
def wdH (wd : Arr R) (b i : ℕ) (u : ℕ → R) (r : ℕ) : R :=
  ∑ k ∈ range b, star (wd.get (i * (b * b) + r * b + k)) * u (i * b + k)

/-- both stages together -/
theorem VecIs.after {v h1 h2 : Vecs R} {x o b : ℕ} {f g : ℕ → R} (a : BlkUpd v x o b f h1)
    (d : VecIs h1 x (fun p => (h1 x).value.get p - g p) h2) :
    VecIs v x (fun p => (if o ≤ p ∧ p < o + b then f (p - o) else (v x).value.get p) - g p) h2 := by
  refine ⟨fun w hw => by rw [d.other w hw, a.other w hw], by rw [d.len, a.len], by rw [d.size, a.size], fun p => ?_⟩
  rw [d.val]
  congr 1
  split
  · next hp =>
    have := a.val (p - o) (by omega)
    rwa [show o + (p - o) = p by omega] at this
  · next hp => exact a.rest p hp

/-- what block row `i` of the conjugate transpose solves does -/
theorem solvehRowBsr_spec (hc : ∀ a, c a = star a) {M : Bsr R} (hco : M.bnr = 2 ∨ M.bnr = 3 → ∀ a, co a = star a)
    (hcw : M.bnr = 1 → ∀ a, cw a = star a) {store reload : Bool}
    (junk : ℕ → R) (h : M.WF) (hsq : M.bnr = M.bnc) {wd : Arr R} (hwd : M.nr * (M.bnr * M.bnr) ≤ wd.size)
    {x i : ℕ} (hrel : reload = true → store = true ∧
      ∀ bc, M.bptr.get i ≤ bc → bc < M.bptr.get (i + 1) → M.bindex.get bc ≠ i)
    (hi : i < M.nr) {v : Vecs R} (hx : M.nc * M.bnc ≤ (v x).value.size) (hx2 : M.nr * M.bnr ≤ (v x).value.size) :
    Ok (solvehRowBsr c co cw store reload junk M wd x i v) (VecIs v x fun p =>
      (if i * M.bnr ≤ p ∧ p < i * M.bnr + M.bnr then
        (if store then wdH wd M.bnr i (v x).value.get (p - i * M.bnr) else (v x).value.get p) else (v x).value.get p) -
      ∑ r ∈ range M.bnr, star (M.entry (i * M.bnr + r) p) * wdH wd M.bnr i (v x).value.get r) := by
  have hbpos := h.hbr
  have w1 := Nat.mul_le_mul_right (M.bnr * M.bnr) (Nat.succ_le_of_lt hi)
  have w2 := Nat.mul_le_mul_right M.bnr (Nat.succ_le_of_lt hi)
  rw [Nat.succ_mul] at w1 w2
  -- the shape delivered by the two stages
  have fin : ∀ {h1 h2 : Vecs R}, BlkUpd v x (i * M.bnr) M.bnr (fun r => if store then
      wdH wd M.bnr i (v x).value.get r else (v x).value.get (i * M.bnr + r)) h1 →
      VecIs h1 x (fun p => (h1 x).value.get p -
        ∑ r ∈ range M.bnr, star (M.entry (i * M.bnr + r) p) * wdH wd M.bnr i (v x).value.get r) h2 →
      VecIs v x (fun p => (if i * M.bnr ≤ p ∧ p < i * M.bnr + M.bnr then
        (if store then wdH wd M.bnr i (v x).value.get (p - i * M.bnr) else (v x).value.get p) else (v x).value.get p) -
      ∑ r ∈ range M.bnr, star (M.entry (i * M.bnr + r) p) * wdH wd M.bnr i (v x).value.get r) h2 := by
    intro h1 h2 a d
    have e := VecIs.after a d
    refine ⟨e.other, e.len, e.size, fun p => ?_⟩
    rw [e.val]
    congr 1
    split
    · next hp => rw [show i * M.bnr + (p - i * M.bnr) = p by omega]
    · rfl
  unfold solvehRowBsr
  split
  · next hb =>
    have hcc : M.bnc = 1 := by omega
    rw [hb] at w1 w2 hwd hx2
    simp only [Ok_bind, Ok_vrd, Ok_rd]
    refine ⟨by omega, by omega, Ok_putVec (by omega) fun h1 hu => ?_⟩
    have ht : (v x).value.get i * cw (wd.get i) = wdH wd 1 i (v x).value.get 0 := by
      simp [wdH, hcw hb, mul_comm]
    have hS := scat1_spec (c := c) hc h hb hcc hi (v := h1) (x := x) (by rw [hu.size]; omega)
      ((v x).value.get i * cw (wd.get i))
      (get := fun h => if reload then vrd h x i else some ((v x).value.get i * cw (wd.get i)))
      (fun h' _ hs hv => by
        cases hre : reload
        · simp
        · simp only [if_true]
          obtain ⟨s1, s2⟩ := hrel hre
          simp only [vrd, Arr.rd]
          rw [if_pos (by rw [hs, hu.size]; omega), hv s2]
          have := hu.val 0 (by omega)
          rw [s1, if_pos rfl] at this
          simpa using this)
    refine hS.mono fun h2 hd => fin (h1 := h1) ?_ ?_
    · rw [hb]
      refine (BlkUpd.nil v x (i * 1) _).snoc (by omega) hu ?_
      rw [ht]; simp
    · refine ⟨hd.other, hd.len, hd.size, fun p => ?_⟩
      rw [hd.val, hb]
      simp only [sum_range_one, ht]
  · next hb =>
    have hcc : M.bnc = 2 := by omega
    rw [hb] at w1 w2 hwd hx2
    simp only [mulVec2, Ok_bind, Ok_mulVec, Ok_pure]
    refine ⟨by omega, by omega, by omega, by omega, by omega, by omega, by omega, by omega, Ok_putVec (by omega)
      fun h1 hu1 => Ok_putVec (by rw [hu1.size]; omega) fun h2 hu2 => ?_⟩
    have hS := scat2_spec (c := c) (co := co) hc (hco (Or.inl hb)) h hb hcc hi (v := h2) (x := x)
      (by rw [hu2.size, hu1.size]; omega) (wdH wd 2 i (v x).value.get)
    have t0 : c (wd.get (4 * i)) * (v x).value.get (i * 2) + c (wd.get (4 * i + 1)) * (v x).value.get (i * 2 + 1) =
        wdH wd 2 i (v x).value.get 0 := by simp [wdH, hc, sum_range_succ, Nat.mul_comm 4 i]
    have t1 : c (wd.get (4 * i + 2)) * (v x).value.get (i * 2) + c (wd.get (4 * i + 2 + 1)) * (v x).value.get (i * 2 + 1) =
        wdH wd 2 i (v x).value.get 1 := by simp [wdH, hc, sum_range_succ, Nat.mul_comm 4 i]
    rw [t0, t1]
    refine hS.mono fun h3 hd => fin (h1 := h2) ?_ ?_
    · rw [hb]
      refine ((BlkUpd.nil v x (i * 2) _).snoc (by omega) hu1 ?_).snoc (by omega) hu2 ?_
      · simp only [t0, Nat.add_zero]
      · simp only [hu1.rest (i * 2 + 1) (by omega), t1]
    · rw [hb] at hd ⊢; exact hd
  · next hb =>
    have hcc : M.bnc = 3 := by omega
    rw [hb] at w1 w2 hwd hx2
    simp only [mulVec3, mulVec2, Ok_bind, Ok_mulVec, Ok_pure]
    refine ⟨by omega, by omega, by omega, by omega, by omega, by omega, by omega, by omega, by omega, by omega, by omega,
      by omega, by omega, by omega, by omega, by omega, by omega, by omega, Ok_putVec (by omega)
      fun h1 hu1 => Ok_putVec (by rw [hu1.size]; omega) fun h2 hu2 => Ok_putVec (by rw [hu2.size, hu1.size]; omega)
      fun h3 hu3 => ?_⟩
    have hS := scat3_spec (c := c) (co := co) hc (hco (Or.inr hb)) h hb hcc hi (v := h3) (x := x)
      (by rw [hu3.size, hu2.size, hu1.size]; omega) (wdH wd 3 i (v x).value.get)
    have t0 : c (wd.get (9 * i)) * (v x).value.get (i * 3) + c (wd.get (9 * i + 1)) * (v x).value.get (i * 3 + 1) +
        c (wd.get (9 * i + 2)) * (v x).value.get (i * 3 + 2) = wdH wd 3 i (v x).value.get 0 := by
      simp [wdH, hc, sum_range_succ, Nat.mul_comm 9 i]
    have t1 : c (wd.get (9 * i + 3)) * (v x).value.get (i * 3) + c (wd.get (9 * i + 3 + 1)) * (v x).value.get (i * 3 + 1) +
        c (wd.get (9 * i + 3 + 2)) * (v x).value.get (i * 3 + 2) = wdH wd 3 i (v x).value.get 1 := by
      simp [wdH, hc, sum_range_succ, Nat.mul_comm 9 i]
    have t2 : c (wd.get (9 * i + 6)) * (v x).value.get (i * 3) + c (wd.get (9 * i + 6 + 1)) * (v x).value.get (i * 3 + 1) +
        c (wd.get (9 * i + 6 + 2)) * (v x).value.get (i * 3 + 2) = wdH wd 3 i (v x).value.get 2 := by
      simp [wdH, hc, sum_range_succ, Nat.mul_comm 9 i]
    rw [t0, t1, t2]
    refine hS.mono fun h4 hd => fin (h1 := h3) ?_ ?_
    · rw [hb]
      refine (((BlkUpd.nil v x (i * 3) _).snoc (by omega) hu1 ?_).snoc (by omega) hu2 ?_).snoc (by omega) hu3 ?_
      · simp only [t0, Nat.add_zero]
      · simp only [hu1.rest (i * 3 + 1) (by omega), t1]
      · simp only [hu2.rest (i * 3 + 2) (by omega), hu1.rest (i * 3 + 2) (by omega), t2]
    · rw [hb] at hd ⊢; exact hd
  · rw [Ok_bind]
    refine Ok_loop_le (fun j (u : Arr R) => u.size = M.bnc ∧ ∀ r, r < j → u.get r = wdH wd M.bnr i (v x).value.get r)
      (Nat.zero_le _) ⟨by simp, fun r hr => absurd hr (by omega)⟩ ?_ ?_
    · rintro j u - hj ⟨u1, u2⟩
      rw [Ok_bind]
      refine Ok_loop_sum' (fun k => star (wd.get (i * (M.bnr * M.bnr) + j * M.bnr + k)) * (v x).value.get (i * M.bnr + k))
        (fun k t _ hk => ?_) ?_
      · rw [← hsq] at hj
        have h3 := blk_le hj hk
        simp only [Ok_bind, Ok_mulVec, Ok_pure, ← hsq, hc]
        exact ⟨by omega, by omega, trivial⟩
      · rw [Ok_wr]
        refine ⟨by omega, by rw [Arr.set_size]; exact u1, fun r hr => ?_⟩
        rw [Arr.set_get]
        split
        · next e => rw [e, zero_add, sum_Ico_zero, wdH]
        · exact u2 r (by omega)
    · rintro w ⟨z1, z2⟩
      rw [Ok_bind]
      refine Ok_loop_le (fun r (h' : Vecs R) => BlkUpd v x (i * M.bnr) r (fun r => if store then
        wdH wd M.bnr i (v x).value.get r else (v x).value.get (i * M.bnr + r)) h') (Nat.zero_le _)
        (BlkUpd.nil _ _ _ _) ?_ ?_
      · intro r h' _ hr hu
        rw [Ok_bind, Ok_rd]
        refine ⟨by omega, Ok_putVec (by rw [hu.size]; omega) fun h2 hu2 => hu.snoc rfl hu2 ?_⟩
        rw [hu.rest _ (by omega), z2 r (by omega)]
      · intro h1 hu
        refine (scatN_spec (c := c) hc h hi (v := h1) (x := x) (by rw [hu.size]; omega) (w := w) (by omega)).mono
          fun h2 hd => fin hu ⟨hd.other, hd.len, hd.size, fun p => ?_⟩
        rw [hd.val]
        congr 1
        refine sum_congr rfl fun r hr => ?_
        rw [z2 r (by have := mem_range.1 hr; omega)]

end
end Lis
