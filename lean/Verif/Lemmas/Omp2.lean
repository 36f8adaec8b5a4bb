import Verif.Lemmas.Omp
import Verif.Lemmas.Matvec1
import Verif.Props.Ranges

/-! Row-parallel loops and buffered products -/

namespace Lis
open Finset
variable {V α β : Type}

/-! ### reading an interleaving theorem -/

theorem Team.Always.reach {T : ℕ} {φ : Mem V → Prop} {c d : Team V} (h : Team.Always T φ c) (hs : c.Steps T d) :
    Team.Always T φ d := by
  induction hs with
  | nil => exact h
  | cons hstep _ ih => cases h with | mk _ _ _ h3 => exact ih (h3 _ hstep)

theorem Team.Always.mono {T : ℕ} {φ ψ : Mem V → Prop} {c : Team V} (h : Team.Always T φ c) (hq : ∀ m, φ m → ψ m) :
    Team.Always T ψ c := by
  induction h with
  | mk c h1 h2 h3 ih => exact ⟨c, fun hd => hq _ (h1 hd), h2, ih⟩

theorem Team.runL_steps {T : ℕ} : ∀ (l : List ℕ) {c d : Team V}, (∀ t ∈ l, t < T) → Team.runL l c = some d →
    c.Steps T d := by
  intro l
  induction l with
  | nil => intro c d _ h; cases h; exact .nil c
  | cons t l ih =>
    intro c d hl h
    rw [Team.runL] at h
    cases hs : c.stepT t with
    | none => rw [hs] at h; cases h
    | some e =>
      rw [hs] at h
      refine .cons ?_ (ih (fun s hs => hl s (by simp [hs])) h)
      unfold Team.stepT at hs
      have ht := hl t (by simp)
      split at hs
      · next a i k hc =>
        split at hs
        · next hi => cases hs; exact .rd c t a i k ht hc hi
        · cases hs
      · next a i v k hc =>
        split at hs
        · next hi => cases hs; exact .wr c t a i v k ht hc hi
        · cases hs
      · cases hs

theorem Thr.isRet_eq {p : Thr V Unit} (h : p.isRet = true) : p = .ret () := by
  cases p <;> simp_all [Thr.isRet]

/-! ### loops whose iteration `i` writes element `i` of block `z` -/

/-- the memory after `z[i] = val i` for `i < n` -/
def Mem.fill (m : Mem V) (z n : ℕ) (val : ℕ → V) : Mem V := fun b =>
  if b = z then ⟨(m z).size, fun j => if j < n then val j else (m z).get j⟩ else m b

/-- iteration `j` writes element `j < n` of block `z` -/
def rowOwn (z n : ℕ) (a j : ℕ) : Option ℕ := if a = z ∧ j < n then some j else none

theorem rowOwn_self {z n i : ℕ} (hi : i < n) : rowOwn z n z i = some i := by simp [rowOwn, hi]

theorem rowOwn_rd {z n a i : ℕ} (hi : i < n) : rowOwn z n a i = none ∨ rowOwn z n a i = some i := by
  unfold rowOwn; split <;> simp

theorem rowOwn_other {z n a : ℕ} (ha : a ≠ z) (j : ℕ) : rowOwn z n a j = none := by simp [rowOwn, ha]

theorem Arr.ext' {a b : Arr V} (h1 : a.size = b.size) (h2 : ∀ i, a.get i = b.get i) : a = b := by
  cases a; cases b; simp only [Arr.mk.injEq]; exact ⟨h1, funext h2⟩

theorem ompFor_rows {n T : ℕ} {sched : ℕ → List ℕ} (hs : Schedule n T sched) {z : ℕ} (val : ℕ → V) {m0 : Mem V}
    {body : ℕ → ℕ → Thr V Unit}
    (h : ∀ t i, t < T → i < n → (body t i).wp (rowOwn z n) i m0 fun _ m => (m z).get i = val i)
    {φ : Mem V → Prop} (hφ : φ (m0.fill z n val)) : ompParallel T (ompFor sched body) m0 φ := by
  refine ompFor_always hs (ito := rowOwn z n) (fun i m => (m z).get i = val i) ?_ h ?_
  · intro a j i e
    unfold rowOwn at e
    split at e
    · next hc => cases e; exact hc.2
    · cases e
  · intro m hsz hun hq
    have : m = m0.fill z n val := by
      funext b
      unfold Mem.fill
      split
      · next hb =>
        subst hb
        refine Arr.ext' (hsz _) fun j => ?_
        dsimp only
        split
        · next hj =>
          obtain ⟨mi, hqi, hv⟩ := hq j hj
          rw [(hv b).2 j (.inr (rowOwn_self hj)), hqi]
        · next hj => exact hun b j (by simp [rowOwn, hj])
      · next hb => exact Arr.ext' (hsz b) fun j => hun b j (rowOwn_other hb j)
    rw [this]; exact hφ

theorem loop_snoc {σ : Type} {lo hi : ℕ} (h : lo ≤ hi) (s : σ) (f : ℕ → σ → Option σ) :
    loop lo (hi + 1) s f = (loop lo hi s f).bind (f hi) := by
  unfold loop
  rw [show hi + 1 - lo = (hi - lo) + 1 by omega]
  generalize hk : hi - lo = k
  have hhi : hi = lo + k := by omega
  subst hhi
  clear hk h
  induction k generalizing lo s with
  | zero => simp [iter]
  | succ k ih =>
    rw [iter]
    conv_rhs => rw [iter]
    cases f lo s with
    | none => rfl
    | some s' =>
      simp only [Option.bind_some]
      rw [ih, show lo + 1 + k = lo + (k + 1) by omega]

/-- what a serial loop `y[i] = row(i)` computes -/
theorem rowLoop_eq {n : ℕ} {row : ℕ → Option V} {y y' : Arr V}
    (h : loop 0 n y (fun i y => (row i).bind fun t => y.wr i t) = some y') :
    (∀ i, i < n → row i = some (y'.get i)) ∧ n ≤ y.size ∧ y'.size = y.size ∧ ∀ j, ¬ j < n → y'.get j = y.get j := by
  induction n generalizing y' with
  | zero => rw [loop_empty (by omega)] at h; cases h; exact ⟨by omega, by omega, rfl, fun _ _ => rfl⟩
  | succ n ih =>
    rw [loop_snoc (by omega)] at h
    cases h1 : loop 0 n y (fun i y => (row i).bind fun t => y.wr i t) with
    | none => rw [h1] at h; cases h
    | some y1 =>
      rw [h1] at h
      obtain ⟨i1, i2, i3, i4⟩ := ih h1
      simp only [Option.bind_some] at h
      cases h2 : row n with
      | none => rw [h2] at h; cases h
      | some v =>
        rw [h2] at h
        simp only [Option.bind_some, Arr.wr] at h
        split at h
        · next hn =>
          cases h
          refine ⟨fun i hi => ?_, by omega, i3, fun j hj => ?_⟩
          · rw [Arr.set_get]
            split
            · next e => rw [e, h2]
            · exact i1 i (by omega)
          · rw [Arr.set_get, if_neg (by omega)]; exact i4 j (by omega)
        · cases h

/-- the serial loop `y[i] = row(i)` and its parallel version give the same block -/
theorem ompFor_serial {n T : ℕ} {sched : ℕ → List ℕ} (hs : Schedule n T sched) {z : ℕ} {row : ℕ → Option V}
    {m0 : Mem V} {y' : Arr V} (h : loop 0 n (m0 z) (fun i y => (row i).bind fun t => y.wr i t) = some y')
    {body : ℕ → ℕ → Thr V Unit}
    (hb : ∀ t i v, i < n → row i = some v → ∀ Q : Unit → Mem V → Prop, i < (m0 z).size → Q () (m0.set z i v) →
      (body t i).wp (rowOwn z n) i m0 Q) :
    ompParallel T (ompFor sched body) m0 fun m => m z = y' ∧ ∀ b, b ≠ z → m b = m0 b := by
  obtain ⟨h1, h2, h3, h4⟩ := rowLoop_eq h
  refine ompFor_rows hs y'.get (z := z) (fun t i _ hi => ?_) ⟨?_, ?_⟩
  · exact hb t i _ hi (h1 i hi) _ (by omega) (by rw [Mem.set_get]; simp)
  · refine Arr.ext' ?_ fun j => ?_
    · simp [Mem.fill, h3]
    · simp only [Mem.fill, if_true]; split
      · rfl
      · next hj => exact (h4 j hj).symm
  · intro b hb; simp [Mem.fill, hb]

/-! ### the matvec loops -/

section kernels
variable {R : Type}

theorem wp_accRowThr [Add R] [Mul R] {own : ℕ → ℕ → Option ℕ} {t : ℕ} {m : Mem R} (c : R → R) (h0 : ∀ j, own 0 j = none)
    {index : Arr ℕ} {value : Arr R} {js je : ℕ} {t0 v : R}
    (h : loop js je t0 (fun j t => do
      let jj ← index.rd j
      let v ← value.rd j
      let xj ← (m 0).rd jj
      pure (t + c v * xj)) = some v) {Q : R → Mem R → Prop} (hq : Q v m) :
    (accRowThr c index value js je t0).wp own t m Q := by
  unfold accRowThr
  refine Thr.wp_for_pure (fun i s s' Q hs hq => ?_) h hq
  have hs' : Ok _ (fun r => r = s') := ⟨_, hs, rfl⟩
  simp only [Ok_bind, Ok_rd, Ok_pure] at hs'
  obtain ⟨h1, h2, h3, h4⟩ := hs'
  simp only [Thr.wp_bind, Thr.wp_lift, Thr.wp_get, Ok_rd]
  refine ⟨h1, h2, .inl (h0 _), h3, ?_⟩
  rw [Thr.wp_pure, h4]; exact hq

theorem wp_scatterThr [AddCommMonoid R] [Mul R] {own : ℕ → ℕ → Option ℕ} {k np : ℕ} {m : Mem R} {c : R → R}
    {index : Arr ℕ} {value : Arr R} {t : R} {js je : ℕ} (hle : js ≤ je)
    (hown : ∀ j, j < np → own 2 (k * np + j) = some k) (hsz : ∀ j, j < np → k * np + j < (m 2).size)
    (hi : ∀ q, js ≤ q → q < je → q < index.size ∧ q < value.size ∧ index.get q < np) {Q : Unit → Mem R → Prop}
    (hq : ∀ m', Frame own k m m' → (∀ j, j < np → (m' 2).get (k * np + j) = (m 2).get (k * np + j) +
      ∑ q ∈ Ico js je, if index.get q = j then c (value.get q) * t else 0) → Q () m') :
    (scatterThr c np index value t js je k).wp own k m Q := by
  unfold scatterThr
  refine Thr.wp_for (fun q _ m' => Frame own k m m' ∧ ∀ j, j < np → (m' 2).get (k * np + j) =
      (m 2).get (k * np + j) + ∑ q ∈ Ico js q, if index.get q = j then c (value.get q) * t else 0) hle
    ⟨Frame.refl m, fun j _ => by simp⟩ ?_ (fun _ m' h => hq m' h.1 h.2)
  rintro q - m' h1 h2 ⟨hf, hv⟩
  obtain ⟨a1, a2, a3⟩ := hi q h1 h2
  simp only [Thr.wp_bind, Thr.wp_lift, Thr.wp_get, Thr.wp_put, Ok_rd]
  have hs := hsz _ a3
  refine ⟨a1, a2, .inr (hown _ a3), by rw [(hf 2).1]; exact hs, hown _ a3, by rw [(hf 2).1]; exact hs, ?_, ?_⟩
  · intro b
    refine ⟨by rw [Mem.set_size]; exact (hf b).1, fun j hj => ?_⟩
    rw [Mem.set_get, if_neg]
    · exact (hf b).2 j hj
    · rintro ⟨rfl, rfl⟩; exact hj (hown _ a3)
  · intro j hj
    rw [Mem.set_get, sum_Ico_succ_top h1]
    by_cases e : index.get q = j
    · rw [if_pos ⟨rfl, by rw [e]⟩, if_pos e, hv _ a3, e, add_assoc]
    · rw [if_neg (by rintro ⟨_, e'⟩; exact e (by omega)), if_neg e, add_zero, hv j hj]

end kernels

/-! ### buffers -/

/-- element `q` of the buffer belongs to the thread (block) `q/np` -/
def bufOwn (np nprocs : ℕ) (a q : ℕ) : Option ℕ := if a = 2 ∧ q < nprocs * np then some (q / np) else none

theorem buf_lt {np nprocs k j : ℕ} (hk : k < nprocs) (hj : j < np) : k * np + j < nprocs * np := by
  have := Nat.mul_le_mul_right np (show k + 1 ≤ nprocs from hk)
  rw [Nat.add_mul, Nat.one_mul] at this; omega

theorem bufOwn_self {np nprocs k j : ℕ} (hk : k < nprocs) (hj : j < np) :
    bufOwn np nprocs 2 (k * np + j) = some k := by
  unfold bufOwn
  rw [if_pos ⟨rfl, buf_lt hk hj⟩]
  rw [Nat.mul_comm, Nat.mul_add_div (by omega), Nat.div_eq_of_lt hj]; rfl

theorem bufOwn_other {np nprocs a : ℕ} (ha : a ≠ 2) (q : ℕ) : bufOwn np nprocs a q = none := by simp [bufOwn, ha]

theorem bufOwn_some {np nprocs a q k : ℕ} (h : bufOwn np nprocs a q = some k) :
    a = 2 ∧ k < nprocs ∧ 0 < np ∧ q = k * np + q % np := by
  unfold bufOwn at h
  split at h
  · next hc =>
    cases h
    have hnp : 0 < np := by
      rcases Nat.eq_zero_or_pos np with h | h
      · rw [h] at hc; omega
      · exact h
    refine ⟨hc.1, Nat.div_lt_of_lt_mul (by rw [Nat.mul_comm]; exact hc.2), hnp, ?_⟩
    rw [Nat.mul_comm]; exact (Nat.div_add_mod q np).symm
  · cases h

theorem bufOwn_none {np nprocs q : ℕ} (h : bufOwn np nprocs 2 q = none) : ¬ q < nprocs * np := by
  intro hq; simp [bufOwn, hq] at h

section buffered
variable {R : Type}

/-- clearing the buffers -/
theorem zeroPhase [Zero R] {np nprocs T : ℕ} {s1 : ℕ → List ℕ} (hs : Schedule nprocs T s1) {m0 : Mem R}
    (hw : nprocs * np ≤ (m0 2).size) {φ : Mem R → Prop}
    (hφ : ∀ m : Mem R, (m 2).size = (m0 2).size → (∀ b, b ≠ 2 → m b = m0 b) →
      (∀ k j, k < nprocs → j < np → (m 2).get (k * np + j) = 0) → φ m) :
    ompParallel T (ompFor s1 fun _ j => zeroBlockThr np j) m0 φ := by
  refine ompFor_always hs (ito := bufOwn np nprocs)
    (fun k m => ∀ j, j < np → (m 2).get (k * np + j) = 0) (fun a j i h => (bufOwn_some h).2.1) ?_ ?_
  · intro t k _ hk
    unfold zeroBlockThr
    refine Thr.wp_for (fun i _ m => (m 2).size = (m0 2).size ∧ ∀ j, j < i → (m 2).get (k * np + j) = 0)
      (Nat.zero_le _) ⟨rfl, fun j hj => by omega⟩ ?_ (fun _ m h => h.2)
    rintro i - m _ hi ⟨h1, h2⟩
    have := buf_lt hk hi
    rw [Thr.wp_put]
    refine ⟨bufOwn_self hk hi, by omega, by rw [Mem.set_size]; exact h1, fun j hj => ?_⟩
    rw [Mem.set_get]
    split
    · rfl
    · next hc => exact h2 j (by have : k * np + j ≠ k * np + i := fun e => hc ⟨rfl, e⟩; omega)
  · intro m hsz hun hq
    refine hφ m (hsz 2) (fun b hb => Arr.ext' (hsz b) fun j => hun b j (bufOwn_other hb j)) ?_
    intro k j hk hj
    obtain ⟨mi, h1, hv⟩ := hq k hk
    rw [(hv 2).2 _ (.inr (bufOwn_self hk hj)), h1 j hj]

/-- scattering: iteration `i` adds `g i j` to element `j` of the buffer of the thread that runs it -/
theorem scatterPhase [AddCommMonoid R] {np nprocs n T : ℕ} {s2 : ℕ → List ℕ} (hs : Schedule n T s2)
    (hT : T ≤ nprocs) {m0 : Mem R} {body : ℕ → ℕ → Thr R Unit}
    (g : ℕ → ℕ → R)
    (hbody : ∀ k i (m : Mem R), k < T → i < n → Frame (bufOwn np nprocs) k m0 m →
      (body k i).wp (bufOwn np nprocs) k m fun _ m' => Frame (bufOwn np nprocs) k m0 m' ∧
        ∀ j, j < np → (m' 2).get (k * np + j) = (m 2).get (k * np + j) + g i j)
    (h0 : ∀ k j, k < nprocs → j < np → (m0 2).get (k * np + j) = 0) {φ : Mem R → Prop}
    (hφ : ∀ m : Mem R, (m 2).size = (m0 2).size → (∀ b, b ≠ 2 → m b = m0 b) →
      (∀ k j, k < nprocs → j < np → (m 2).get (k * np + j) = if k < T then ((s2 k).map fun i => g i j).sum else 0) →
      φ m) :
    ompParallel T (ompFor s2 body) m0 φ := by
  refine always_of_wp (own := bufOwn np nprocs)
    (fun k m => ∀ j, j < np → (m 2).get (k * np + j) = ((s2 k).map fun i => g i j).sum) ?_ ?_
  · intro k hk
    unfold ompFor
    refine Thr.wp_forL (fun done _ m => Frame (bufOwn np nprocs) k m0 m ∧
      ∀ j, j < np → (m 2).get (k * np + j) = (done.map fun i => g i j).sum) (s2 k) [] () m0
      ⟨Frame.refl m0, fun j hj => by simpa using h0 k j (by omega) hj⟩ ?_ (fun _ m h => by simpa using h.2)
    rintro i - m done rest e ⟨hf, hv⟩
    have hi : i < n := hs.lt hk (by rw [show s2 k = done ++ i :: rest by simpa using e]; simp)
    refine Thr.wp_mono (hbody k i m hk hi hf) ?_
    rintro _ m' ⟨hf', hv'⟩
    refine ⟨hf', fun j hj => ?_⟩
    rw [hv' j hj, hv j hj]; simp
  · intro m hsz hun hq
    refine hφ m (hsz 2) ?_ ?_
    · intro b hb
      refine Arr.ext' (hsz b) fun j => hun b j fun t _ e => ?_
      rw [bufOwn_other hb] at e; cases e
    · intro k j hk hj
      split
      · next hkT =>
        obtain ⟨mt, h1, hv⟩ := hq k hkT
        rw [(hv 2).2 _ (.inr (bufOwn_self hk hj)), h1 j hj]
      · next hkT =>
        rw [hun 2 _ (fun t ht e => ?_), h0 k j hk hj]
        rw [bufOwn_self hk hj] at e; cases e; omega

theorem wp_gatherThr [AddCommMonoid R] {own : ℕ → ℕ → Option ℕ} {t np nprocs i : ℕ} {m : Mem R} (h2 : ∀ q, own 2 q = none)
    (hw : nprocs * np ≤ (m 2).size) (hi : i < np) {Q : R → Mem R → Prop}
    (hq : Q (∑ k ∈ range nprocs, (m 2).get (k * np + i)) m) : (gatherThr nprocs np i).wp own t m Q := by
  unfold gatherThr
  refine Thr.wp_for (fun j s m' => m' = m ∧ s = ∑ k ∈ range j, (m 2).get (k * np + i)) (Nat.zero_le _)
    ⟨rfl, by simp⟩ ?_ ?_
  · rintro j s m' _ hj ⟨rfl, rfl⟩
    have := buf_lt hj hi
    rw [Thr.wp_bind, Thr.wp_get]
    refine ⟨.inl (h2 _), by omega, ?_⟩
    rw [Thr.wp_pure]
    exact ⟨rfl, (sum_range_succ ..).symm⟩
  · rintro s m' ⟨rfl, rfl⟩; exact hq

theorem sched_sum [AddCommMonoid R] {n T : ℕ} {s : ℕ → List ℕ} (hs : Schedule n T s) (f : ℕ → R) :
    ∑ k ∈ range T, ((s k).map f).sum = ∑ i ∈ range n, f i := by
  rw [← map_range_sum n f, ← (hs.map f).sum_eq, flatMap_range_sum]

/-- summing the buffers: `y[i] = out i (sum)` -/
theorem gatherPhase [AddCommMonoid R] {np nprocs cols n T : ℕ} {s2 s3 : ℕ → List ℕ} (hs2 : Schedule n T s2)
    (hs3 : Schedule cols T s3) (hT : T ≤ nprocs) (hc : cols ≤ np) {m0 : Mem R} (g : ℕ → ℕ → R)
    (hw : nprocs * np ≤ (m0 2).size)
    (hv : ∀ k j, k < nprocs → j < np →
      (m0 2).get (k * np + j) = if k < T then ((s2 k).map fun i => g i j).sum else 0)
    {body : ℕ → R → Thr R Unit} (val : ℕ → R)
    (hbody : ∀ i, i < cols → (body i (∑ r ∈ range n, g r i)).wp (rowOwn 1 cols) i m0 fun _ m => (m 1).get i = val i) :
    ompParallel T (ompFor s3 fun _ i => do
      let t ← gatherThr nprocs np i
      body i t) m0 fun m => m = m0.fill 1 cols val := by
  refine ompFor_rows hs3 val (fun t i _ hi => ?_) rfl
  rw [Thr.wp_bind]
  refine wp_gatherThr (fun q => rowOwn_other (by decide) q) hw (by omega) ?_
  have : ∑ k ∈ range nprocs, (m0 2).get (k * np + i) = ∑ r ∈ range n, g r i := by
    rw [← sched_sum hs2 (fun r => g r i)]
    rw [← sum_subset (range_subset_range.2 hT)]
    · refine sum_congr rfl fun k hk => ?_
      rw [mem_range] at hk
      rw [hv k i (by omega) (by omega), if_pos hk]
    · intro k hk hk'
      rw [mem_range] at hk hk'
      rw [hv k i hk (by omega), if_neg hk']
  rw [this]
  exact hbody i hi

/-- clear, scatter, gather -/
theorem buffered_spec [AddCommMonoid R] {np nprocs cols n T : ℕ} {s1 s2 s3 : ℕ → List ℕ}
    (hs1 : Schedule nprocs T s1) (hs2 : Schedule n T s2) (hs3 : Schedule cols T s3) (h0 : 0 < T) (hT : T ≤ nprocs)
    (hc : cols ≤ np) {m0 : Mem R} (hw : nprocs * np ≤ (m0 2).size) (g : ℕ → ℕ → R) {scat : ℕ → ℕ → Thr R Unit}
    (hscat : ∀ k i (m : Mem R), k < T → i < n → (∀ b, (m b).size = (m0 b).size) → (∀ b, b ≠ 2 → m b = m0 b) →
      (scat k i).wp (bufOwn np nprocs) k m fun _ m' =>
        ∀ j, j < np → (m' 2).get (k * np + j) = (m 2).get (k * np + j) + g i j)
    {body : ℕ → R → Thr R Unit} (val : ℕ → R)
    (hbody : ∀ i (m : Mem R), i < cols → (∀ b, (m b).size = (m0 b).size) → (∀ b, b ≠ 2 → m b = m0 b) →
      (body i (∑ r ∈ range n, g r i)).wp (rowOwn 1 cols) i m fun _ m => (m 1).get i = val i) :
    ompParallel T (fun k => do
      ompFor s1 (fun _ j => zeroBlockThr np j) k
      Thr.barrier
      ompFor s2 scat k
      Thr.barrier
      ompFor s3 (fun _ i => do
        let t ← gatherThr nprocs np i
        body i t) k) m0 fun m =>
      m 1 = ⟨(m0 1).size, fun j => if j < cols then val j else (m0 1).get j⟩ ∧ ∀ b, b ≠ 1 → b ≠ 2 → m b = m0 b := by
  refine ompParallel_bar h0 (zeroPhase hs1 hw fun m1 hz1 ho1 hv1 => ?_)
    (φ := fun m1 => (m1 2).size = (m0 2).size ∧ (∀ b, b ≠ 2 → m1 b = m0 b) ∧
      ∀ k j, k < nprocs → j < np → (m1 2).get (k * np + j) = 0) ?_
  · exact ⟨hz1, ho1, hv1⟩
  rintro m1 ⟨hz1, ho1, hv1⟩
  have hsize : ∀ (m : Mem R), (m 2).size = (m0 2).size → (∀ b, b ≠ 2 → m b = m0 b) →
      ∀ b, (m b).size = (m0 b).size := by
    intro m h1 h2 b
    by_cases hb : b = 2
    · rw [hb, h1]
    · rw [h2 b hb]
  refine ompParallel_bar h0 (scatterPhase hs2 hT (m0 := m1) g ?_ hv1 fun m2 hz2 ho2 hv2 => ?_)
    (φ := fun m2 => (m2 2).size = (m0 2).size ∧ (∀ b, b ≠ 2 → m2 b = m0 b) ∧
      ∀ k j, k < nprocs → j < np →
        (m2 2).get (k * np + j) = if k < T then ((s2 k).map fun i => g i j).sum else 0) ?_
  · intro k i m hk hi hf
    have hb : ∀ b, b ≠ 2 → m b = m0 b := by
      intro b hb
      rw [← ho1 b hb]
      exact Arr.ext' (hf b).1 fun j => (hf b).2 j (by rw [bufOwn_other hb]; simp)
    have hz : (m 2).size = (m0 2).size := (hf 2).1.trans hz1
    refine Thr.wp_mono (Thr.wp_frame (hscat k i m hk hi (hsize m hz hb) hb) hf) ?_
    rintro _ m' ⟨h1, h2⟩
    exact ⟨h2, h1⟩
  · exact ⟨hz2.trans hz1, fun b hb => (ho2 b hb).trans (ho1 b hb), hv2⟩
  rintro m2 ⟨hz2, ho2, hv2⟩
  have := gatherPhase hs2 hs3 hT hc (m0 := m2) g (by rw [hz2]; exact hw) hv2 (body := body) val
    (fun i hi => hbody i m2 hi (hsize m2 hz2 ho2) ho2)
  refine Team.Always.mono this ?_
  rintro m rfl
  refine ⟨?_, ?_⟩
  · simp only [Mem.fill, if_true]; rw [ho2 1 (by decide)]
  · intro b h1 h2; simp only [Mem.fill, if_neg h1]; exact ho2 b h2

end buffered
end Lis
