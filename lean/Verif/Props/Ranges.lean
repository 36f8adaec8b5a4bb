import Verif.Model.Ranges
import Verif.Base.Lists3

/-! # C17: row ranges partition the rows -/

namespace Lis
open Finset

theorem getIsIe_eq (id p n : ℕ) :
    getIsIe id p n = (n / p * id + min id (n % p), n / p * (id + 1) + min (id + 1) (n % p)) := by
  unfold getIsIe
  split
  · next h =>
    simp only [Prod.mk.injEq]
    rw [Nat.add_mul, Nat.mul_add]
    omega
  · next h =>
    simp only [Prod.mk.injEq]
    rw [Nat.mul_add]
    omega

/-- **C17 (contiguous).** Consecutive ranges meet, the first starts at 0, the last ends at `n`. -/
theorem getIsIe_contiguous (p n : ℕ) (hp : 0 < p) :
    (getIsIe 0 p n).1 = 0 ∧ (∀ id, (getIsIe id p n).2 = (getIsIe (id + 1) p n).1) ∧ (getIsIe (p - 1) p n).2 = n := by
  refine ⟨by rw [getIsIe_eq]; simp, fun id => by rw [getIsIe_eq, getIsIe_eq], ?_⟩
  rw [getIsIe_eq, show p - 1 + 1 = p by omega]
  have := Nat.mod_lt n hp
  have := Nat.div_add_mod n p
  rw [Nat.mul_comm] at this
  simp only
  omega

/-- **C17 (balanced).** Each range has `⌊n/p⌋` or `⌊n/p⌋+1` rows. -/
theorem getIsIe_balanced (id p n : ℕ) :
    (getIsIe id p n).1 ≤ (getIsIe id p n).2 ∧
    ((getIsIe id p n).2 - (getIsIe id p n).1 = n / p ∨ (getIsIe id p n).2 - (getIsIe id p n).1 = n / p + 1) := by
  rw [getIsIe_eq]
  simp only
  rw [Nat.mul_add]
  omega

/-- **C17 (partition).** Every row belongs to the range of exactly one process. -/
theorem getIsIe_partition (p n : ℕ) (hp : 0 < p) (i : ℕ) (hi : i < n) :
    ∃! id, id < p ∧ (getIsIe id p n).1 ≤ i ∧ i < (getIsIe id p n).2 := by
  obtain ⟨h0, hc, hl⟩ := getIsIe_contiguous p n hp
  have hmono : ∀ a b, a ≤ b → (getIsIe a p n).1 ≤ (getIsIe b p n).1 := by
    intro a b hab
    induction b, hab using Nat.le_induction with
    | base => exact le_rfl
    | succ b _ ih =>
      have := (getIsIe_balanced b p n).1
      have := hc b
      omega
  have hex : ∀ m, i < (getIsIe m p n).1 → ∃ id, id < m ∧ (getIsIe id p n).1 ≤ i ∧ i < (getIsIe id p n).2 := by
    intro m
    induction m with
    | zero => intro h; omega
    | succ m ih =>
      intro h
      by_cases hm : i < (getIsIe m p n).1
      · obtain ⟨id, h1, h2⟩ := ih hm; exact ⟨id, by omega, h2⟩
      · exact ⟨m, by omega, by omega, by rw [hc m]; exact h⟩
  obtain ⟨id, h1, h2, h3⟩ := hex p (by have := hc (p - 1); rw [show p - 1 + 1 = p by omega] at this; omega)
  refine ⟨id, ⟨h1, h2, h3⟩, ?_⟩
  rintro id' ⟨k1, k2, k3⟩
  by_contra hne
  rcases Nat.lt_or_gt_of_ne hne with h | h
  · have := hmono (id' + 1) id h
    rw [← hc] at this; omega
  · have := hmono (id + 1) id' h
    rw [← hc] at this; omega

/-- **C17 (MPI, global size given).** All ranks pass local size 0 and the same global size `n`: every rank gets its
`LIS_GET_ISIE` range, and the same table of boundaries `ranges[r] = start of rank r`, `ranges[nprocs] = n`. -/
theorem rangesCreateMpi_global (junk : ℕ → ℕ) (p me n : ℕ) (hme : me < p) (localN : ℕ → ℕ) (hl : ∀ r, r < p → localN r = 0) :
    Ok (rangesCreateMpi junk p me localN fun _ => n) fun o =>
      o.is = (getIsIe me p n).1 ∧ o.ie = (getIsIe me p n).2 ∧ o.is + o.localN = o.ie ∧ o.globalN = n ∧
      ∃ t, o.ranges = some t ∧ t.size = p + 1 ∧ (∀ r, r < p → t.get r = (getIsIe r p n).1 ∧ t.get (r + 1) = (getIsIe r p n).2) ∧
        t.get p = n := by
  unfold rangesCreateMpi
  simp only
  rw [if_pos (sum_eq_zero fun r hr => hl r (by simpa using hr)), Ok_bind]
  refine Ok_loop_le (fun i (t : Arr ℕ) => t.size = p + 1 ∧ ∀ r, r < i → t.get (r + 1) = (getIsIe r p n).2) (Nat.zero_le _)
    ⟨rfl, fun r hr => by omega⟩ ?_ ?_
  · rintro i t _ hi ⟨t1, t2⟩
    simp only [Ok_wr]
    refine ⟨by omega, by simpa, fun r hr => ?_⟩
    rw [Arr.set_get]
    split
    · next h => rw [show r = i by omega]
    · exact t2 r (by omega)
  rintro t ⟨t1, t2⟩
  simp only [Ok_bind, Ok_wr]
  rw [Ok_pure]
  have hb := (getIsIe_balanced me p n).1
  obtain ⟨h0, hc, hlast⟩ := getIsIe_contiguous p n (by omega)
  have htab : ∀ r, r < p → ((t.set 0 0).get r = (getIsIe r p n).1 ∧ (t.set 0 0).get (r + 1) = (getIsIe r p n).2) := by
    intro r hr
    refine ⟨?_, by rw [Arr.set_get_ne _ _ (by omega)]; exact t2 r hr⟩
    cases r with
    | zero => rw [Arr.set_get_self, h0]
    | succ r => rw [Arr.set_get_ne _ _ (by omega), t2 r (by omega), hc]
  refine ⟨by omega, rfl, rfl, by simp only; omega, rfl, _, rfl, by simpa, htab, ?_⟩
  have := (htab (p - 1) (by omega)).2
  rw [show p - 1 + 1 = p by omega, hlast] at this
  exact this

/-- **C17 (MPI, local sizes given).** The ranks' pieces are placed one after the other in rank order and the global
size is their sum. -/
theorem rangesCreateMpi_local (junk : ℕ → ℕ) (p me : ℕ) (hme : me < p) (localN globalN : ℕ → ℕ)
    (hl : (∑ r ∈ range p, localN r) ≠ 0) :
    Ok (rangesCreateMpi junk p me localN globalN) fun o =>
      o.localN = localN me ∧ o.is = ∑ r ∈ range me, localN r ∧ o.ie = o.is + localN me ∧
      o.globalN = ∑ r ∈ range p, localN r ∧
      ∃ t, o.ranges = some t ∧ t.size = p + 1 ∧ ∀ k, k ≤ p → t.get k = ∑ r ∈ range k, localN r := by
  unfold rangesCreateMpi
  simp only
  rw [if_neg hl, Ok_bind]
  refine Ok_loop_le (fun i (t : Arr ℕ) => t.size = p + 1 ∧ ∀ r, r < i → t.get (r + 1) = localN r) (Nat.zero_le _)
    ⟨rfl, fun r hr => by omega⟩ ?_ ?_
  · rintro i t _ hi ⟨t1, t2⟩
    simp only [Ok_wr]
    refine ⟨by omega, by simpa, fun r hr => ?_⟩
    rw [Arr.set_get]
    split
    · next h => rw [show r = i by omega]
    · exact t2 r (by omega)
  rintro t ⟨t1, t2⟩
  simp only [Ok_bind, Ok_wr]
  refine ⟨by omega, ?_⟩
  refine Ok_accum (b := 0) localN (by simp) (fun i hi => ?_) ?_ ?_
  · rw [Arr.set_get_ne _ _ (by omega)]; exact t2 i hi
  · intro i q hi hq
    simp only [Arr.set_size] at hq
    simp only [Ok_bind, Ok_rd, Ok_wr]
    exact ⟨by omega, by omega, by omega, trivial⟩
  intro q hq hp
  simp only [Arr.set_size] at hq
  simp only [Ok_rd]
  rw [Ok_pure]
  refine ⟨by omega, by omega, by omega, rfl, ?_, ?_, ?_, _, rfl, by omega, fun k hk => ?_⟩
  · simp only; rw [hp me (by omega)]; omega
  · simp only; rw [hp (me + 1) (by omega), hp me (by omega), sum_range_succ]; omega
  · simp only; rw [hp p le_rfl]; omega
  · rw [hp k hk]; omega

/-- **C17 (serial).** One process owns all rows. -/
theorem rangesCreateSerial_spec (l g : ℕ) :
    (rangesCreateSerial l g).is = 0 ∧ (rangesCreateSerial l g).ie = (rangesCreateSerial l g).globalN ∧
    (rangesCreateSerial l g).localN = (rangesCreateSerial l g).globalN ∧
    (rangesCreateSerial l g).globalN = if l = 0 then g else l := by
  unfold rangesCreateSerial; split <;> simp [*]

/-! ### not vacuous -/
example : (List.range 4).map (fun id => getIsIe id 4 10) = [(0, 3), (3, 6), (6, 8), (8, 10)] := by decide
example : (List.range 4).map (fun id => getIsIe id 4 3) = [(0, 1), (1, 2), (2, 3), (3, 3)] := by decide

end Lis
