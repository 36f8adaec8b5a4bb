/-
C-level execution model: memory blocks, bounds-checked access, loops.

`Option` is the outcome of running C code: `none` = undefined behaviour (an access outside an
allocated block) or non-termination, `some r` = normal return with result `r`.
-/
universe u v w

namespace Lis

/-- A memory block: `size` elements, with contents given by a total function.  Only the
contents at indices below `size` are meaningful; every access in a model goes through the
bounds-checked `rd`/`wr`. -/
structure Arr (α : Type u) where
  size : Nat
  get : Nat → α

namespace Arr
variable {α : Type u}

/-- `a[i]` as an rvalue; `none` (undefined behaviour) when out of bounds. -/
def rd (a : Arr α) (i : Nat) : Option α := if i < a.size then some (a.get i) else none

/-- functional update (no bounds check) -/
def set (a : Arr α) (i : Nat) (v : α) : Arr α := ⟨a.size, fun j => if j = i then v else a.get j⟩

/-- `a[i] = v`; `none` (undefined behaviour) when out of bounds. -/
def wr (a : Arr α) (i : Nat) (v : α) : Option (Arr α) :=
  if i < a.size then some (a.set i v) else none

/-- `a[i]` with a signed index. -/
def rdI (a : Arr α) (i : Int) : Option α := if 0 ≤ i then a.rd i.toNat else none

/-- `a[i] = v` with a signed index. -/
def wrI (a : Arr α) (i : Int) (v : α) : Option (Arr α) := if 0 ≤ i then a.wr i.toNat v else none

/-- block with the given contents -/
def ofList [Inhabited α] (l : List α) : Arr α := ⟨l.length, fun i => l.getD i default⟩

/-- `malloc(n*sizeof(α))`: a block whose contents are arbitrary (`junk`). -/
def malloc (n : Nat) (junk : Nat → α) : Arr α := ⟨n, junk⟩

/-- the first `size` elements, as a list (for stating examples) -/
def toList (a : Arr α) : List α := (List.range a.size).map a.get

@[simp] theorem set_size (a : Arr α) (i : Nat) (v : α) : (a.set i v).size = a.size := rfl
theorem set_get (a : Arr α) (i : Nat) (v : α) (j : Nat) :
    (a.set i v).get j = if j = i then v else a.get j := rfl
@[simp] theorem set_get_self (a : Arr α) (i : Nat) (v : α) : (a.set i v).get i = v := by
  simp [set_get]
theorem set_get_ne (a : Arr α) {i j : Nat} (v : α) (h : j ≠ i) : (a.set i v).get j = a.get j := by
  simp [set_get, h]
@[simp] theorem malloc_size (n : Nat) (junk : Nat → α) : (malloc n junk).size = n := rfl
@[simp] theorem malloc_get (n : Nat) (junk : Nat → α) (i : Nat) :
    (malloc n junk).get i = junk i := rfl
end Arr

/-- `Ok m Q`: running `m` is defined (no out-of-bounds access, terminates) and its result
satisfies `Q`. -/
def Ok {α : Type u} (m : Option α) (Q : α → Prop) : Prop := ∃ a, m = some a ∧ Q a

section Ok
variable {α : Type u} {β : Type v} {σ : Type w}

@[simp] theorem Ok_some (a : α) (Q : α → Prop) : Ok (some a) Q ↔ Q a := by simp [Ok]
@[simp] theorem Ok_pure (a : α) (Q : α → Prop) : Ok (pure a) Q ↔ Q a := by simp [Ok]
@[simp] theorem Ok_none (Q : α → Prop) : Ok (none : Option α) Q ↔ False := by simp [Ok]
@[simp] theorem Ok_bind {α β : Type u} (m : Option α) (f : α → Option β) (Q : β → Prop) :
    Ok (m >>= f) Q ↔ Ok m (fun a => Ok (f a) Q) := by
  cases m <;> simp [Ok]
@[simp] theorem Ok_obind (m : Option α) (f : α → Option β) (Q : β → Prop) :
    Ok (m.bind f) Q ↔ Ok m (fun a => Ok (f a) Q) := by
  cases m <;> simp [Ok]
@[simp] theorem Ok_rd (a : Arr α) (i : Nat) (Q : α → Prop) :
    Ok (a.rd i) Q ↔ i < a.size ∧ Q (a.get i) := by
  unfold Arr.rd; by_cases h : i < a.size <;> simp [h]
@[simp] theorem Ok_wr (a : Arr α) (i : Nat) (v : α) (Q : Arr α → Prop) :
    Ok (a.wr i v) Q ↔ i < a.size ∧ Q (a.set i v) := by
  unfold Arr.wr; by_cases h : i < a.size <;> simp [h]
@[simp] theorem Ok_rdI (a : Arr α) (i : Int) (Q : α → Prop) :
    Ok (a.rdI i) Q ↔ 0 ≤ i ∧ i.toNat < a.size ∧ Q (a.get i.toNat) := by
  unfold Arr.rdI; by_cases h : 0 ≤ i <;> simp [h]
@[simp] theorem Ok_wrI (a : Arr α) (i : Int) (v : α) (Q : Arr α → Prop) :
    Ok (a.wrI i v) Q ↔ 0 ≤ i ∧ i.toNat < a.size ∧ Q (a.set i.toNat v) := by
  unfold Arr.wrI; by_cases h : 0 ≤ i <;> simp [h]

theorem Ok_ite (c : Prop) [Decidable c] (m m' : Option α) (Q : α → Prop) :
    Ok (if c then m else m') Q ↔ (c → Ok m Q) ∧ (¬c → Ok m' Q) := by
  split <;> simp_all

theorem Ok.mono {m : Option α} {Q Q' : α → Prop} (h : Ok m Q) (hq : ∀ a, Q a → Q' a) : Ok m Q' :=
  let ⟨a, h1, h2⟩ := h; ⟨a, h1, hq a h2⟩

theorem Ok.bind {m : Option α} {f : α → Option β} {P : α → Prop} {Q : β → Prop}
    (h : Ok m P) (hf : ∀ a, P a → Ok (f a) Q) : Ok (m.bind f) Q := by
  rw [Ok_obind]; exact h.mono hf

theorem Ok.conj {m : Option α} {P Q : α → Prop} (h : Ok m P) (h' : Ok m Q) :
    Ok m (fun a => P a ∧ Q a) := by
  obtain ⟨a, h1, h2⟩ := h; obtain ⟨b, h3, h4⟩ := h'
  have : a = b := by simpa [h1] using h3
  subst this; exact ⟨a, h1, h2, h4⟩

theorem Ok_eq_some {m : Option α} {a : α} (h : m = some a) (Q : α → Prop) : Ok m Q ↔ Q a := by
  simp [h]
end Ok

/-- run `f` for `k` consecutive indices starting at `i` -/
def iter {σ : Type u} (f : Nat → σ → Option σ) : Nat → Nat → σ → Option σ
  | 0, _, s => some s
  | k + 1, i, s => (f i s).bind (iter f k (i + 1))

/-- `for(i=lo;i<hi;i++) s = f(i,s);` -/
def loop {σ : Type u} (lo hi : Nat) (s : σ) (f : Nat → σ → Option σ) : Option σ :=
  iter f (hi - lo) lo s

/-- `for(i=hi-1;i>=lo;i--) s = f(i,s);` -/
def loopDown {σ : Type u} (lo hi : Nat) (s : σ) (f : Nat → σ → Option σ) : Option σ :=
  loop lo hi s (fun k s => f (hi - 1 - (k - lo)) s)

/-- run `f` for at most `k` consecutive indices starting at `i`; `f` returns `true` to `break` -/
def iterB {σ : Type u} (f : Nat → σ → Option (Bool × σ)) : Nat → Nat → σ → Option σ
  | 0, _, s => some s
  | k + 1, i, s => (f i s).bind fun p => if p.1 then some p.2 else iterB f k (i + 1) p.2

/-- `for(i=lo;i<hi;i++) { s = f(i,s); if (…) break; }` -/
def loopB {σ : Type u} (lo hi : Nat) (s : σ) (f : Nat → σ → Option (Bool × σ)) : Option σ :=
  iterB f (hi - lo) lo s

/-- `while(c(s)) s = f(s);` — least fixed point: `none` when it does not terminate. -/
def whileL {σ : Type u} (c : σ → Option Bool) (f : σ → Option σ) (s : σ) : Option σ :=
  match c s with
  | none => none
  | some false => some s
  | some true =>
    match f s with
    | none => none
    | some s' => whileL c f s'
partial_fixpoint

section rules
variable {σ : Type u}

theorem Ok_iter {f : Nat → σ → Option σ} (I : Nat → σ → Prop) {Q : σ → Prop} :
    ∀ (k i : Nat) (s : σ), I i s →
    (∀ j s, i ≤ j → j < i + k → I j s → Ok (f j s) (I (j + 1))) →
    (∀ s, I (i + k) s → Q s) → Ok (iter f k i s) Q := by
  intro k
  induction k with
  | zero => intro i s h _ hq; simpa [iter] using hq s h
  | succ k ih =>
    intro i s h hs hq
    simp only [iter, Ok_obind]
    refine (hs i s (Nat.le_refl _) (by omega) h).mono fun s' hs' => ?_
    refine ih (i + 1) s' hs' (fun j s hj hj' => hs j s (by omega) (by omega)) ?_
    intro s h; apply hq; rwa [show i + (k + 1) = i + 1 + k by omega]

/-- loop-invariant rule -/
theorem Ok_loop {lo hi : Nat} {s : σ} {f : Nat → σ → Option σ} (I : Nat → σ → Prop)
    {Q : σ → Prop} (h0 : I lo s)
    (hs : ∀ i s, lo ≤ i → i < hi → I i s → Ok (f i s) (I (i + 1)))
    (hq : ∀ s, I (max lo hi) s → Q s) : Ok (loop lo hi s f) Q := by
  refine Ok_iter I _ _ _ h0 (fun j s hj hj' => hs j s hj (by omega)) ?_
  intro s h; apply hq
  rwa [show max lo hi = lo + (hi - lo) by omega]

theorem Ok_loop_le {lo hi : Nat} {s : σ} {f : Nat → σ → Option σ} (I : Nat → σ → Prop)
    {Q : σ → Prop} (hle : lo ≤ hi) (h0 : I lo s)
    (hs : ∀ i s, lo ≤ i → i < hi → I i s → Ok (f i s) (I (i + 1)))
    (hq : ∀ s, I hi s → Q s) : Ok (loop lo hi s f) Q :=
  Ok_loop I h0 hs (by rwa [show max lo hi = hi by omega])

/-- invariant rule for downward loops: `I k` holds when indices `≥ k` have been processed -/
theorem Ok_loopDown {lo hi : Nat} {s : σ} {f : Nat → σ → Option σ} (I : Nat → σ → Prop)
    {Q : σ → Prop} (hle : lo ≤ hi) (h0 : I hi s)
    (hs : ∀ i s, lo ≤ i → i < hi → I (i + 1) s → Ok (f i s) (I i))
    (hq : ∀ s, I lo s → Q s) : Ok (loopDown lo hi s f) Q := by
  unfold loopDown
  refine Ok_loop_le (fun k s => I (hi - (k - lo)) s) hle (by simpa using h0) ?_ ?_
  · intro i s h1 h2 h
    have := hs (hi - 1 - (i - lo)) s (by omega) (by omega)
      (by rwa [show hi - 1 - (i - lo) + 1 = hi - (i - lo) by omega])
    rwa [show hi - 1 - (i - lo) = hi - (i + 1 - lo) by omega] at this ⊢
  · intro s h; apply hq; rwa [show hi - (hi - lo) = lo by omega] at h

theorem Ok_iterB {f : Nat → σ → Option (Bool × σ)} (I : Nat → σ → Prop) {Q : σ → Prop} :
    ∀ (k i : Nat) (s : σ), I i s →
    (∀ j s, i ≤ j → j < i + k → I j s →
      Ok (f j s) (fun p => if p.1 then Q p.2 else I (j + 1) p.2)) →
    (∀ s, I (i + k) s → Q s) → Ok (iterB f k i s) Q := by
  intro k
  induction k with
  | zero => intro i s h _ hq; simpa [iterB] using hq s h
  | succ k ih =>
    intro i s h hs hq
    simp only [iterB, Ok_obind]
    refine (hs i s (Nat.le_refl _) (by omega) h).mono fun p hp => ?_
    split
    · next hb => simpa [hb] using hp
    · next hb =>
      refine ih (i + 1) p.2 (by simpa [hb] using hp)
        (fun j s hj hj' => hs j s (by omega) (by omega)) ?_
      intro s h; apply hq; rwa [show i + (k + 1) = i + 1 + k by omega]

/-- invariant rule for loops with `break`: the body either breaks establishing `Q`, or
re-establishes the invariant -/
theorem Ok_loopB {lo hi : Nat} {s : σ} {f : Nat → σ → Option (Bool × σ)} (I : Nat → σ → Prop)
    {Q : σ → Prop} (h0 : I lo s)
    (hs : ∀ i s, lo ≤ i → i < hi → I i s →
      Ok (f i s) (fun p => if p.1 then Q p.2 else I (i + 1) p.2))
    (hq : ∀ s, I (max lo hi) s → Q s) : Ok (loopB lo hi s f) Q := by
  refine Ok_iterB I _ _ _ h0 (fun j s hj hj' => hs j s hj (by omega)) ?_
  intro s h; apply hq
  rwa [show max lo hi = lo + (hi - lo) by omega]

/-- total-correctness rule for `while`: invariant `I`, variant `μ` -/
theorem Ok_while {c : σ → Option Bool} {f : σ → Option σ} {s : σ} (I : σ → Prop) (μ : σ → Nat)
    {Q : σ → Prop} (h0 : I s)
    (hs : ∀ s, I s → Ok (c s) (fun b =>
      if b then Ok (f s) (fun s' => I s' ∧ μ s' < μ s) else Q s)) :
    Ok (whileL c f s) Q := by
  generalize hm : μ s = m
  induction m using Nat.strongRecOn generalizing s with
  | ind m ih =>
    rw [whileL]
    obtain ⟨b, hc, hb⟩ := hs s h0
    rw [hc]
    cases b with
    | false => simpa using hb
    | true =>
      obtain ⟨s', hf, hs'⟩ := hb
      simp only [hf]
      exact ih (μ s') (by omega) hs'.1 rfl

/-- a loop whose bodies agree on the indices it visits -/
theorem iter_congr {f g : Nat → σ → Option σ} :
    ∀ (k i : Nat) (s : σ), (∀ j s, i ≤ j → j < i + k → f j s = g j s) →
      iter f k i s = iter g k i s := by
  intro k
  induction k with
  | zero => intros; rfl
  | succ k ih =>
    intro i s h
    simp only [iter]
    rw [h i s (Nat.le_refl _) (by omega)]
    congr 1; funext s'
    exact ih (i + 1) s' (fun j s h1 h2 => h j s (by omega) (by omega))

theorem loop_congr {lo hi : Nat} {s : σ} {f g : Nat → σ → Option σ}
    (h : ∀ j s, lo ≤ j → j < hi → f j s = g j s) : loop lo hi s f = loop lo hi s g :=
  iter_congr _ _ _ (fun j s h1 h2 => h j s h1 (by omega))

theorem loop_empty {lo hi : Nat} {s : σ} {f : Nat → σ → Option σ} (h : hi ≤ lo) :
    loop lo hi s f = some s := by
  unfold loop; rw [show hi - lo = 0 by omega]; rfl

theorem iter_none {f : Nat → σ → Option σ} :
    ∀ (k i : Nat) (s : σ) {m : Nat}, i ≤ m → m < i + k → (∀ s, f m s = none) → iter f k i s = none := by
  intro k
  induction k with
  | zero => intros; omega
  | succ k ih =>
    intro i s m h1 h2 h
    simp only [iter]
    by_cases hm : m = i
    · subst hm; rw [h]; rfl
    · cases f i s with
      | none => rfl
      | some s' => exact ih (i + 1) s' (by omega) (by omega) h

/-- a loop one of whose iterations is undefined -/
theorem loop_none {lo hi i : Nat} {s : σ} {f : Nat → σ → Option σ} (h1 : lo ≤ i) (h2 : i < hi)
    (h : ∀ s, f i s = none) : loop lo hi s f = none :=
  iter_none _ _ _ h1 (by omega) h
end rules

end Lis
