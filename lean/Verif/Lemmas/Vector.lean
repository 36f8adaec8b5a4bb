import Verif.Model.Vector
import Verif.Base.Sum
import Verif.Base.Lists
import Mathlib.Algebra.BigOperators.Group.List.Lemmas
import Mathlib.Data.List.Range

/-! Lemmas for the vector operations. -/

namespace Lis
open Finset
variable {R S : Type}

/-- `h'` differs from `h` only in the first `n` elements of vector `z` (`n` its length), where it holds `g i` -/
structure Assigned (h : Vecs R) (z : ℕ) (g : ℕ → R) (h' : Vecs R) : Prop where
  other : ∀ w, w ≠ z → h' w = h w
  len : (h' z).n = (h z).n
  size : (h' z).value.size = (h z).value.size
  get : ∀ i, (h' z).value.get i = if i < (h z).n then g i else (h z).value.get i

theorem Ok_vwr (h : Vecs R) (v i : ℕ) (a : R) (Q : Vecs R → Prop) :
    Ok (vwr h v i a) Q ↔ i < (h v).value.size ∧
      Q (fun w => if w = v then ⟨(h v).n, (h v).value.set i a⟩ else h w) := by
  simp [vwr]

theorem Ok_vrd (h : Vecs R) (v i : ℕ) (Q : R → Prop) :
    Ok (vrd h v i) Q ↔ i < (h v).value.size ∧ Q ((h v).value.get i) := by
  simp [vrd]

/-- what iteration `i` of an element-wise loop may assume -/
structure ElemInv (h0 : Vecs R) (z i : ℕ) (h : Vecs R) : Prop where
  other : ∀ w, w ≠ z → h w = h0 w
  len : ∀ w, (h w).n = (h0 w).n
  size : ∀ w, (h w).value.size = (h0 w).value.size
  later : ∀ w j, i ≤ j → (h w).value.get j = (h0 w).value.get j

theorem Ok_elem {h0 : Vecs R} {z n : ℕ} {body : ℕ → Vecs R → Option (Vecs R)} (g : ℕ → R)
    (hn : (h0 z).n = n) (hz : n ≤ (h0 z).value.size)
    (hb : ∀ i h, i < n → ElemInv h0 z i h → body i h = vwr h z i (g i)) {Q : Vecs R → Prop}
    (hq : ∀ h, Assigned h0 z g h → Q h) : Ok (loop 0 n h0 body) Q := by
  refine Ok_loop_le (fun i h => ElemInv h0 z i h ∧ ∀ j, j < i → (h z).value.get j = g j) (Nat.zero_le _)
    ⟨⟨fun _ _ => rfl, fun _ => rfl, fun _ => rfl, fun _ _ _ => rfl⟩, fun j hj => absurd hj (by omega)⟩ ?_ ?_
  · rintro i h - hi ⟨hI, hg⟩
    rw [hb i h hi hI, Ok_vwr]
    refine ⟨by rw [hI.size]; omega, ⟨?_, ?_, ?_, ?_⟩, ?_⟩
    · intro w hw; simp only [if_neg hw]; exact hI.other w hw
    · intro w; by_cases hw : w = z
      · subst hw; simp [hI.len]
      · simp [hw, hI.len]
    · intro w; by_cases hw : w = z
      · subst hw; simp [hI.size]
      · simp [hw, hI.size]
    · intro w j hj; by_cases hw : w = z
      · subst hw; simp only [if_true]; rw [Arr.set_get_ne _ _ (by omega)]; exact hI.later _ _ (by omega)
      · simp only [if_neg hw]; exact hI.later _ _ (by omega)
    · intro j hj
      simp only [if_true, Arr.set_get]
      split
      · next h => rw [h]
      · exact hg j (by omega)
  · rintro h ⟨hI, hg⟩
    refine hq h ⟨hI.other, hI.len z, hI.size z, fun i => ?_⟩
    split
    · next h => exact hg i (by omega)
    · next h => exact hI.later z i (by omega)

theorem vrd_eq {h0 h : Vecs R} {z i n : ℕ} (hI : ElemInv h0 z i h) {w : ℕ} (hi : i < n)
    (hw : n ≤ (h0 w).value.size) : vrd h w i = some ((h0 w).value.get i) := by
  rw [vrd, Arr.rd, if_pos (by rw [hI.size]; omega), hI.later _ _ (Nat.le_refl _)]

theorem Ok_reduceSerial [AddCommMonoid S] {f : ℕ → Option S} {n : ℕ} (g : ℕ → S)
    (hf : ∀ i, i < n → f i = some (g i)) {Q : S → Prop} (hq : Q (∑ i ∈ range n, g i)) :
    Ok (reduceSerial f n) Q := by
  unfold reduceSerial
  refine Ok_loop_sum g (fun j t _ hj => ?_) (by simpa [sum_Ico_zero] using hq)
  rw [hf j hj]; rfl

theorem reduceThread_eq [AddCommMonoid S] {f : ℕ → Option S} (g : ℕ → S) (its : List ℕ)
    (hf : ∀ i ∈ its, f i = some (g i)) : reduceThread f its = some ((its.map g).sum) := by
  unfold reduceThread
  suffices h : ∀ (its : List ℕ) (a : S), (∀ i ∈ its, f i = some (g i)) →
      its.foldlM (fun s i => do let a ← f i; pure (s + a)) a = some (a + (its.map g).sum) by
    simpa using h its 0 hf
  intro its
  induction its with
  | nil => intro a _; simp
  | cons i its ih =>
    intro a hf
    rw [List.foldlM_cons, hf i (by simp)]
    simp only [Option.bind_eq_bind, Option.bind_some, Option.pure_def, Option.bind_eq_bind]
    have := ih (a + g i) (fun j hj => hf j (by simp [hj]))
    simp only [Option.bind_eq_bind, Option.pure_def] at this
    rw [this]; simp [add_assoc]

/-- the iterations `0..n-1` are distributed over the `team` threads, each exactly once -/
def Schedule (n team : ℕ) (sched : ℕ → List ℕ) : Prop :=
  ((List.range team).flatMap sched).Perm (List.range n)

theorem Ok_reduceOmp [AddCommMonoid S] {f : ℕ → Option S} {n p : ℕ} {sched : ℕ → List ℕ} {tmp : Arr S} (g : ℕ → S)
    (hs : Schedule n p sched) (ht : p * vecTmpPadd ≤ tmp.size)
    (hf : ∀ i, i < n → f i = some (g i)) {Q : S → Prop} (hq : Q (∑ i ∈ range n, g i)) :
    Ok (reduceOmp f p p sched tmp) (fun r => Q r.1) := by
  unfold reduceOmp
  have hmem : ∀ t, t < p → ∀ i ∈ sched t, i < n := by
    intro t ht i hi
    have : i ∈ (List.range p).flatMap sched := List.mem_flatMap.2 ⟨t, by simpa using ht, hi⟩
    simpa using hs.mem_iff.1 this
  have hpad : ∀ t, t < p → t * vecTmpPadd < p * vecTmpPadd :=
    fun t h => Nat.mul_lt_mul_of_pos_right h (by decide)
  rw [Ok_bind]
  refine Ok_loop_le (fun t (w : Arr S) => w.size = tmp.size ∧
    ∀ s, s < t → w.get (s * vecTmpPadd) = ((sched s).map g).sum) (Nat.zero_le _)
    ⟨rfl, fun s hs => absurd hs (by omega)⟩ ?_ ?_
  · rintro t w - h2 ⟨hsz, hg⟩
    rw [reduceThread_eq g _ (fun i hi => hf i (hmem t h2 i hi)), Ok_bind, Ok_some, Ok_wr]
    refine ⟨by have := hpad t h2; omega, hsz, ?_⟩
    intro s hs'
    rw [Arr.set_get]
    split
    · next h =>
      have : s = t := by
        rcases Nat.mul_right_cancel_iff (m := vecTmpPadd) (by decide) |>.1 h with h'; exact h'
      rw [this]
    · next h =>
      have : s ≠ t := fun e => h (by rw [e])
      exact hg s (by omega)
  · rintro w ⟨hsz, hg⟩
    rw [Ok_bind]
    refine Ok_loop_sum (fun t => ((sched t).map g).sum) (fun t s _ h2 => ?_) ?_
    · rw [Arr.rd, if_pos (by have := hpad t h2; omega), hg t h2]; rfl
    · rw [Ok_pure]
      have : ∑ j ∈ Ico 0 p, ((sched j).map g).sum = ∑ i ∈ range n, g i := by
        rw [sum_Ico_zero, ← map_range_sum n g, ← (hs.map g).sum_eq, flatMap_range_sum]
      rw [this, zero_add]; exact hq

/-- the run configurations in which a reduction is correct: the serial build, or a team of exactly
`omp_get_max_threads()` threads, any schedule, with `lis_vec_tmp` large enough -/
def GoodRun (n : ℕ) : Option (OmpRun S) → Prop
  | none => True
  | some r => r.team = r.nprocs ∧ Schedule n r.team r.sched ∧ r.nprocs * vecTmpPadd ≤ r.tmp.size

theorem Ok_reduce [AddCommMonoid S] {run : Option (OmpRun S)} {f : ℕ → Option S} {n : ℕ} (g : ℕ → S)
    (hr : GoodRun n run) (hf : ∀ i, i < n → f i = some (g i)) {Q : S → Prop} (hq : Q (∑ i ∈ range n, g i)) :
    Ok (reduce run f n) Q := by
  cases run with
  | none => exact Ok_reduceSerial g hf hq
  | some r =>
    obtain ⟨h1, h2, h3⟩ := hr
    simp only [reduce, Ok_bind, Ok_pure]
    rw [h1]
    exact Ok_reduceOmp g (h1 ▸ h2) h3 hf hq

end Lis
