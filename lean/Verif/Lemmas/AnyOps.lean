import Verif.Model.AnyOps
import Verif.Spec.DiagOps
import Verif.Lemmas.CsrOps
import Verif.Base.Sum

/-! In-place updates of an array: each position is changed at most once, by a function known for it. -/

namespace Lis
open Finset
variable {α : Type}

/-- `z'` is `z` with every position `k` for which `T k g` holds replaced by `g (z k)` -/
def Upd (z : Arr α) (T : ℕ → (α → α) → Prop) (z' : Arr α) : Prop :=
  z'.size = z.size ∧ (∀ k g, T k g → z'.get k = g (z.get k)) ∧ ∀ k, (∀ g, ¬ T k g) → z'.get k = z.get k

theorem Upd.set (z : Arr α) (p : ℕ) (g : α → α) {v : α} (hv : v = g (z.get p)) :
    Upd z (fun k h => k = p ∧ h = g) (z.set p v) := by
  refine ⟨rfl, ?_, fun k hk => Arr.set_get_ne _ _ fun h => hk g ⟨h, rfl⟩⟩
  rintro k h ⟨rfl, rfl⟩
  rw [Arr.set_get_self, hv]

theorem Upd.same (z : Arr α) : Upd z (fun _ _ => False) z := ⟨rfl, fun _ _ h => h.elim, fun _ _ => rfl⟩

theorem Upd.congr {z z' : Arr α} {T T' : ℕ → (α → α) → Prop} (h : Upd z T z') (hT : ∀ k g, T' k g ↔ T k g) :
    Upd z T' z' :=
  ⟨h.1, fun k g hg => h.2.1 k g ((hT k g).1 hg), fun k hk => h.2.2 k fun g hg => hk g ((hT k g).2 hg)⟩

/-- a loop whose iterations update disjoint sets of positions -/
theorem Ok_loop_upd {lo hi : ℕ} {y : Arr α} {f : ℕ → Arr α → Option (Arr α)} (T : ℕ → ℕ → (α → α) → Prop)
    (disj : ∀ x x' k g g', lo ≤ x → x < hi → lo ≤ x' → x' < hi → T x k g → T x' k g' → x = x')
    (hf : ∀ x z, lo ≤ x → x < hi → z.size = y.size → Ok (f x z) (Upd z (T x))) :
    Ok (loop lo hi y f) (Upd y fun k g => ∃ x, lo ≤ x ∧ x < hi ∧ T x k g) := by
  refine Ok_loop (fun m z => Upd y (fun k g => ∃ x, lo ≤ x ∧ x < min m hi ∧ T x k g) z) ?_ ?_ ?_
  · refine (Upd.same y).congr fun k g => ⟨?_, fun h => h.elim⟩
    rintro ⟨x, h1, h2, -⟩; omega
  · intro m z h1 h2 hz
    refine (hf m z h1 h2 hz.1).mono ?_
    rintro z' hz'
    refine ⟨hz'.1.trans hz.1, ?_, ?_⟩
    · rintro k g ⟨x, x1, x2, x3⟩
      by_cases hx : x = m
      · subst hx
        rw [hz'.2.1 k g x3, hz.2.2 k]
        rintro g' ⟨x', y1, y2, y3⟩
        have := disj x x' k g g' x1 h2 y1 (by omega) x3 y3
        omega
      · rw [hz'.2.2 k, hz.2.1 k g ⟨x, x1, by omega, x3⟩]
        intro g' hg'
        exact hx (disj x m k g g' x1 (by omega) h1 h2 x3 hg')
    · intro k hk
      rw [hz'.2.2 k fun g hg => hk g ⟨m, h1, by omega, hg⟩, hz.2.2 k]
      rintro g ⟨x, x1, x2, x3⟩
      exact hk g ⟨x, x1, by omega, x3⟩
  · intro z hz
    refine hz.congr fun k g => ?_
    constructor
    · rintro ⟨x, x1, x2, x3⟩; exact ⟨x, x1, by omega, x3⟩
    · rintro ⟨x, x1, x2, x3⟩; exact ⟨x, x1, by omega, x3⟩

/-- one element per iteration -/
theorem Ok_loop_upd1 {lo hi : ℕ} {y : Arr α} {f : ℕ → Arr α → Option (Arr α)} (p : ℕ → ℕ) (g : ℕ → α → α)
    (inj : ∀ x x', lo ≤ x → x < hi → lo ≤ x' → x' < hi → p x = p x' → x = x')
    (hf : ∀ x z, lo ≤ x → x < hi → z.size = y.size → Ok (f x z) fun z' => z' = z.set (p x) (g x (z.get (p x)))) :
    Ok (loop lo hi y f) (Upd y fun k h => ∃ x, lo ≤ x ∧ x < hi ∧ k = p x ∧ h = g x) := by
  refine Ok_loop_upd (fun x k h => k = p x ∧ h = g x) ?_ ?_
  · rintro x x' k h h' h1 h2 h3 h4 ⟨rfl, -⟩ ⟨h5, -⟩
    exact inj x x' h1 h2 h3 h4 h5
  · intro x z h1 h2 h3
    refine (hf x z h1 h2 h3).mono ?_
    rintro _ rfl
    exact Upd.set z (p x) (g x) rfl

/-- as `Ok_loop_upd`, with a running counter whose value at iteration `x` is `c x` -/
theorem Ok_loop_updC {lo hi c0 : ℕ} {y : Arr α} {f : ℕ → ℕ × Arr α → Option (ℕ × Arr α)} (c : ℕ → ℕ)
    (T : ℕ → ℕ → (α → α) → Prop) (hle : lo ≤ hi) (hc : c0 = c lo)
    (disj : ∀ x x' k g g', lo ≤ x → x < hi → lo ≤ x' → x' < hi → T x k g → T x' k g' → x = x')
    (hf : ∀ x z, lo ≤ x → x < hi → z.size = y.size →
      Ok (f x (c x, z)) fun s => s.1 = c (x + 1) ∧ Upd z (T x) s.2) :
    Ok (loop lo hi (c0, y) f) fun s => s.1 = c hi ∧ Upd y (fun k g => ∃ x, lo ≤ x ∧ x < hi ∧ T x k g) s.2 := by
  refine Ok_loop_le (fun m s => s.1 = c m ∧ Upd y (fun k g => ∃ x, lo ≤ x ∧ x < m ∧ T x k g) s.2) hle ?_ ?_ ?_
  · refine ⟨hc, (Upd.same y).congr fun k g => ⟨?_, fun h => h.elim⟩⟩
    rintro ⟨x, h1, h2, -⟩; omega
  · rintro m ⟨_, z⟩ h1 h2 ⟨rfl, hz⟩
    simp only at hz
    refine (hf m z h1 h2 hz.1).mono ?_
    rintro ⟨_, z'⟩ ⟨rfl, hz'⟩
    simp only at hz'
    refine ⟨rfl, hz'.1.trans hz.1, ?_, ?_⟩
    · rintro k g ⟨x, x1, x2, x3⟩
      by_cases hx : x = m
      · subst hx
        show z'.get k = _
        rw [hz'.2.1 k g x3, hz.2.2 k]
        rintro g' ⟨x', y1, y2, y3⟩
        have := disj x x' k g g' x1 h2 y1 (by omega) x3 y3
        omega
      · show z'.get k = _
        rw [hz'.2.2 k, hz.2.1 k g ⟨x, x1, by omega, x3⟩]
        intro g' hg'
        exact hx (disj x m k g g' x1 (by omega) h1 h2 x3 hg')
    · intro k hk
      show z'.get k = _
      rw [hz'.2.2 k fun g hg => hk g ⟨m, h1, by omega, hg⟩, hz.2.2 k]
      rintro g ⟨x, x1, x2, x3⟩
      exact hk g ⟨x, x1, by omega, x3⟩
  · exact fun s hs => hs

variable {R : Type}

theorem Ok_mulCell [Mul R] {v : Arr R} {k : ℕ} {w : R} {Q : Arr R → Prop} :
    Ok (mulCell v k w) Q ↔ k < v.size ∧ Q (v.set k (v.get k * w)) := by
  unfold mulCell
  simp only [Ok_bind, Ok_rd, Ok_wr]
  tauto

theorem Ok_subAt [Sub R] {v : Arr R} {k : ℕ} {w : R} {Q : Arr R → Prop} :
    Ok (subAt v k w) Q ↔ k < v.size ∧ Q (v.set k (v.get k - w)) := by
  unfold subAt
  simp only [Ok_bind, Ok_rd, Ok_wr]
  tauto

/-- row numbers of positions in a pointer array -/
theorem PtrWF.row_unique {n nnz : ℕ} {ptr : Arr ℕ} (h : PtrWF n nnz ptr) {i i' k : ℕ} (hi : i < n) (hi' : i' < n)
    (h1 : ptr.get i ≤ k) (h2 : k < ptr.get (i + 1)) (h3 : ptr.get i' ≤ k) (h4 : k < ptr.get (i' + 1)) : i = i' := by
  rcases Nat.lt_trichotomy i i' with hl | hl | hl
  · have := h.mono' (i := i + 1) (j := i') hl (by omega); omega
  · exact hl
  · have := h.mono' (i := i' + 1) (j := i) hl (by omega); omega

/-- flat positions -/
theorem flat_inj {i i' j j' m : ℕ} (hj : j < m) (hj' : j' < m) (h : i * m + j = i' * m + j') : i = i' ∧ j = j' := by
  have h1 : (i * m + j) / m = i := by
    rw [Nat.mul_comm, Nat.mul_add_div (by omega), Nat.div_eq_of_lt hj, Nat.add_zero]
  have h2 : (i' * m + j') / m = i' := by
    rw [Nat.mul_comm, Nat.mul_add_div (by omega), Nat.div_eq_of_lt hj', Nat.add_zero]
  have : i = i' := by rw [← h1, ← h2, h]
  subst this
  exact ⟨rfl, by omega⟩

end Lis
