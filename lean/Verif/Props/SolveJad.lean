import Verif.Props.TriSweep
import Verif.Model.SolveJad

/-!
# C71: the row walk of the JAD triangular solves

`ptr` has `maxnzr+1` elements (`lis_matrix_malloc_jad`, src/matrix/lis_matrix_jad.c:241). A row that has an element in
every jagged diagonal makes the walk read `ptr[maxnzr+1]`.
-/

namespace Lis
variable {R : Type}

theorem whileL_step {σ : Type} {c : σ → Option Bool} {f : σ → Option σ} {s : σ} (h : c s = some true) :
    whileL c f s = (f s).bind fun s' => whileL c f s' := by
  rw [whileL, h]
  simp only
  cases f s <;> rfl

theorem rd_some {α : Type} {a : Arr α} {i : ℕ} (h : i < a.size) : a.rd i = some (a.get i) := by simp [Arr.rd, h]

theorem rd_none {α : Type} {a : Arr α} {i : ℕ} (h : a.size ≤ i) : a.rd i = none := by simp [Arr.rd, h]

/-- **C71 (rows shorter than the longest).** The walk visits the elements `ptr[d]+k` of the row, in the order of the
jagged diagonals, and reads only existing elements of `ptr`. -/
theorem jadWalk_short {σ : Type} {A : Jad R} {k m : ℕ} (hm : m < A.maxnzr) (hsz : A.maxnzr + 1 ≤ A.ptr.size)
    (hin : ∀ d, d < m → A.ptr.get d + k < A.ptr.get (d + 1)) (hend : A.ptr.get (m + 1) ≤ A.ptr.get m + k)
    (f : ℕ → σ → Option σ) (s : σ) :
    jadWalk A k f s = loop 0 m s fun d s => f (A.ptr.get d + k) s := by
  unfold jadWalk loop
  rw [rd_some (by omega)]
  simp only [Option.bind_eq_bind, Option.bind_some]
  suffices H : ∀ r d (s : σ), d + r = m → (whileL (fun (r : ℕ × ℕ × σ) => do
      let p ← A.ptr.rd r.2.1
      pure (decide (r.1 < p) && decide (r.2.1 ≤ A.maxnzr)))
    (fun (r : ℕ × ℕ × σ) => do
      let s ← f r.1 r.2.2
      let p ← A.ptr.rd r.2.1
      pure (p + k, r.2.1 + 1, s)) (A.ptr.get d + k, d + 1, s)).bind (fun r => pure r.2.2) =
      iter (fun d s => f (A.ptr.get d + k) s) r d s from H m 0 s (by omega)
  intro r
  induction r with
  | zero =>
    intro d s hd
    have hd' : d = m := by omega
    subst hd'
    rw [whileL]
    simp only [Option.bind_eq_bind]
    rw [rd_some (by omega)]
    have : decide (A.ptr.get d + k < A.ptr.get (d + 1)) = false := by simp; omega
    simp only [Option.bind_some, this, Bool.false_and]
    rfl
  | succ r ih =>
    intro d s hd
    have h1 := hin d (by omega)
    rw [whileL_step (by
      simp only [Option.bind_eq_bind]
      rw [rd_some (by omega)]
      have : decide (d + 1 ≤ A.maxnzr) = true := by simp; omega
      have e1 : decide (A.ptr.get d + k < A.ptr.get (d + 1)) = true := by simpa using h1
      simp only [Option.bind_some, this, e1]
      rfl)]
    simp only [iter, Option.bind_eq_bind]
    cases hf : f (A.ptr.get d + k) s with
    | none => rfl
    | some s' =>
      simp only [Option.bind_some]
      rw [rd_some (by omega)]
      exact ih (d + 1) s' (by omega)

/-- **C71 (deviation).** A row at a position `k` that occurs in every jagged diagonal makes the walk read the element
behind the end of `ptr`, whatever is done with the elements of the row. -/
theorem jadWalk_oob {σ : Type} {A : Jad R} {k : ℕ} (hsz : A.ptr.size = A.maxnzr + 1)
    (hin : ∀ d, d < A.maxnzr → A.ptr.get d + k < A.ptr.get (d + 1)) (f : ℕ → σ → Option σ) (s : σ) :
    jadWalk A k f s = none := by
  unfold jadWalk
  rw [rd_some (by omega)]
  simp only [Option.bind_eq_bind, Option.bind_some]
  suffices H : ∀ r d (s : σ), d + r = A.maxnzr → whileL (fun (r : ℕ × ℕ × σ) => do
      let p ← A.ptr.rd r.2.1
      pure (decide (r.1 < p) && decide (r.2.1 ≤ A.maxnzr)))
    (fun (r : ℕ × ℕ × σ) => do
      let s ← f r.1 r.2.2
      let p ← A.ptr.rd r.2.1
      pure (p + k, r.2.1 + 1, s)) (A.ptr.get d + k, d + 1, s) = none by
    have := H A.maxnzr 0 s (by omega)
    simp only [Option.bind_eq_bind, Nat.zero_add] at this
    rw [this]; rfl
  intro r
  induction r with
  | zero =>
    intro d s hd
    rw [whileL]
    simp only [Option.bind_eq_bind]
    rw [rd_none (by omega)]
    rfl
  | succ r ih =>
    intro d s hd
    have h1 := hin d (by omega)
    rw [whileL_step (by
      simp only [Option.bind_eq_bind]
      rw [rd_some (by omega)]
      have : decide (d + 1 ≤ A.maxnzr) = true := by simp; omega
      have e1 : decide (A.ptr.get d + k < A.ptr.get (d + 1)) = true := by simpa using h1
      simp only [Option.bind_some, this, e1]
      rfl)]
    simp only [Option.bind_eq_bind]
    cases hf : f (A.ptr.get d + k) s with
    | none => rfl
    | some s' =>
      simp only [Option.bind_some]
      rw [rd_some (by omega)]
      exact ih (d + 1) s' (by omega)

/-- a jagged-diagonal part as `lis_matrix_split_jad` stores it: `ptr` has `maxnzr+1` elements, no jagged diagonal is
empty; row `i` is the first row of the permuted matrix, a longest one -/
structure Jad.FirstRow (A : Jad R) (col : Arr ℕ) (i : ℕ) : Prop where
  sz : A.ptr.size = A.maxnzr + 1
  full : ∀ d, d < A.maxnzr → A.ptr.get d < A.ptr.get (d + 1)
  first : col.rd i = some 0

theorem Jad.FirstRow.walk {A : Jad R} {col : Arr ℕ} {i : ℕ} (h : A.FirstRow col i) {σ : Type} (f : ℕ → σ → Option σ) (s : σ) :
    jadWalk A 0 f s = none := jadWalk_oob h.sz (fun d hd => h.full d hd) f s

theorem loopDown_none {σ : Type} {n i : ℕ} (hi : i < n) {s : σ} {f : ℕ → σ → Option σ} (h : ∀ s, f i s = none) :
    loopDown 0 n s f = none := by
  unfold loopDown
  refine loop_none (i := n - 1 - i) (Nat.zero_le _) (by omega) fun t => ?_
  rw [show n - 1 - (n - 1 - i - 0) = i by omega]; exact h t

section solve
variable [Zero R] [Add R] [Sub R] [Mul R]

theorem solveRowJad_oob {A : Jad R} {col : Arr ℕ} {wd : Arr R} {b x i : ℕ} (hf : A.FirstRow col i) (h : Vecs R) :
    solveRowJad A col wd b x i h = none := by
  unfold solveRowJad
  rw [hf.first]
  simp only [Option.bind_eq_bind, Option.bind_some]
  cases vrd h b i with
  | none => rfl
  | some t => simp only [Option.bind_some]; rw [hf.walk]; rfl

theorem solvehRowJad_oob {conj : R → R} {A : Jad R} {col : Arr ℕ} {wd : Arr R} {x i : ℕ} (hf : A.FirstRow col i) (h : Vecs R) :
    solvehRowJad conj A col wd x i h = none := by
  unfold solvehRowJad
  rw [hf.first]
  simp only [Option.bind_eq_bind, Option.bind_some]
  cases vrd h x i with
  | none => rfl
  | some t =>
    simp only [Option.bind_some]
    cases wd.rd i with
    | none => rfl
    | some w =>
      simp only [Option.bind_some]
      cases vwr h x i (t * conj w) with
      | none => rfl
      | some h1 => simp only [Option.bind_some]; exact hf.walk _ _

/-- **C71 (LOWER).** `lis_matrix_solve_jad` reads outside `L->ptr`, for every matrix. -/
theorem solveLowerJad_oob {A : SplitJad R} {lcol : Arr ℕ} {i : ℕ} (hi : i < A.n) (hf : A.L.FirstRow lcol i) (wd : Arr R)
    (b x : ℕ) (h : Vecs R) : solveLowerJad A lcol wd b x h = none :=
  loop_none (Nat.zero_le i) hi fun h => solveRowJad_oob hf h

/-- **C71 (UPPER).** -/
theorem solveUpperJad_oob {A : SplitJad R} {ucol : Arr ℕ} {i : ℕ} (hi : i < A.n) (hf : A.U.FirstRow ucol i) (wd : Arr R)
    (b x : ℕ) (h : Vecs R) : solveUpperJad A ucol wd b x h = none :=
  loopDown_none hi fun h => solveRowJad_oob hf h

/-- **C71 (SSOR).** -/
theorem solveSsorJad_oob {A : SplitJad R} {lcol : Arr ℕ} {i : ℕ} (hi : i < A.n) (hf : A.L.FirstRow lcol i) (ucol : Arr ℕ)
    (wd : Arr R) (b x : ℕ) (h : Vecs R) : solveSsorJad A lcol ucol wd b x h = none := by
  unfold solveSsorJad
  rw [loop_none (Nat.zero_le i) hi fun h => solveRowJad_oob hf h]
  rfl

/-- **C71 (conjugate transpose, LOWER).** -/
theorem solvehLowerJad_oob (conj : R → R) {A : SplitJad R} {ucol : Arr ℕ} {i : ℕ} (hi : i < A.n) (hf : A.U.FirstRow ucol i)
    (wd : Arr R) (b x : ℕ) (h : Vecs R) : solvehLowerJad conj A ucol wd b x h = none := by
  unfold solvehLowerJad
  simp only [Option.bind_eq_bind]
  cases vectorCopy b x h with
  | none => rfl
  | some r => exact loop_none (Nat.zero_le i) hi fun h => solvehRowJad_oob hf h

/-- **C71 (conjugate transpose, UPPER).** -/
theorem solvehUpperJad_oob (conj : R → R) {A : SplitJad R} {lcol : Arr ℕ} {i : ℕ} (hi : i < A.n) (hf : A.L.FirstRow lcol i)
    (wd : Arr R) (b x : ℕ) (h : Vecs R) : solvehUpperJad conj A lcol wd b x h = none := by
  unfold solvehUpperJad
  simp only [Option.bind_eq_bind]
  cases vectorCopy b x h with
  | none => rfl
  | some r => exact loopDown_none hi fun h => solvehRowJad_oob hf h

/-- **C71 (conjugate transpose, SSOR).** -/
theorem solvehSsorJad_oob (conj : R → R) {A : SplitJad R} {ucol : Arr ℕ} {i : ℕ} (hi : i < A.n) (hf : A.U.FirstRow ucol i)
    (lcol : Arr ℕ) (wd : Arr R) (b x : ℕ) (h : Vecs R) : solvehSsorJad conj A lcol ucol wd b x h = none := by
  unfold solvehSsorJad
  simp only [Option.bind_eq_bind]
  cases vectorCopy b x h with
  | none => rfl
  | some r =>
    simp only [Option.bind_some]
    rw [loop_none (Nat.zero_le i) hi fun h => ?_]
    · rfl
    rw [hf.first]
    simp only [Option.bind_some]
    cases vrd h x i with
    | none => rfl
    | some t =>
      simp only [Option.bind_some]
      cases wd.rd i with
      | none => rfl
      | some w => simp only [Option.bind_some]; exact hf.walk _ _

end solve

/-- `2 1 0 / 3 1 4 / 0 5 -1` as `lis_matrix_split_jad` stores it -/
def exSJad : SplitJad ℚ where
  n := 3
  np := 3
  D := .ofList [2, 1, -1]
  L := ⟨3, 3, 2, 1, .ofList [1, 2, 0], .ofList [0, 2], .ofList [0, 1], .ofList [3, 5]⟩
  U := ⟨3, 3, 2, 1, .ofList [0, 1, 2], .ofList [0, 2], .ofList [1, 2], .ofList [1, 4]⟩

def exSLcol : Arr ℕ := .ofList [2, 0, 1]
def exSUcol : Arr ℕ := .ofList [0, 1, 2]

example : exSJad.L.FirstRow exSLcol 1 := ⟨by decide, by decide, by decide⟩
example : exSJad.U.FirstRow exSUcol 0 := ⟨by decide, by decide, by decide⟩
/-- row 0 of `L` (position 2) is a short row -/
example : 0 < exSJad.L.maxnzr ∧ exSJad.L.maxnzr + 1 ≤ exSJad.L.ptr.size ∧ exSJad.L.ptr.get (0 + 1) ≤ exSJad.L.ptr.get 0 + 2 := by
  decide

end Lis
