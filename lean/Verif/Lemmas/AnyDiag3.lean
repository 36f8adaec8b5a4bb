import Verif.Lemmas.AnyDiag2

/-! Where each format keeps its diagonal elements, and what that means for the entries. -/

namespace Lis
open Finset
variable {R α : Type}

/-- one group of pairs per iteration of a loop -/
theorem Ok_loop_pairs {lo hi : ℕ} {y : Arr α} {P : ℕ → ℕ → ℕ → Prop} {q : ℕ → ℕ → ℕ} {g : ℕ → ℕ → α → α}
    {f : ℕ → Arr α → Option (Arr α)} (hinj : PairsInj (fun i p => ∃ x, lo ≤ x ∧ x < hi ∧ P x i p) q)
    (hx : ∀ x x' i p, lo ≤ x → x < hi → lo ≤ x' → x' < hi → P x i p → P x' i p → x = x')
    (hf : ∀ x z, lo ≤ x → x < hi → z.size = y.size → Ok (f x z) (Upd z (Pairs (P x) q g))) :
    Ok (loop lo hi y f) (Upd y (Pairs (fun i p => ∃ x, lo ≤ x ∧ x < hi ∧ P x i p) q g)) := by
  refine (Ok_loop_upd (fun x => Pairs (P x) q g) ?_ hf).mono fun z hz => hz.congr fun k h => ?_
  · rintro x x' k h h' h1 h2 h3 h4 ⟨i, p, hp, e, -⟩ ⟨i', p', hp', e', -⟩
    obtain ⟨rfl, rfl⟩ := hinj i p i' p' ⟨x, h1, h2, hp⟩ ⟨x', h3, h4, hp'⟩ (e.symm.trans e')
    exact hx x x' i p h1 h2 h3 h4 hp hp'
  · constructor
    · rintro ⟨i, p, ⟨x, x1, x2, x3⟩, e1, e2⟩; exact ⟨x, x1, x2, i, p, x3, e1, e2⟩
    · rintro ⟨x, x1, x2, i, p, x3, e1, e2⟩; exact ⟨i, p, ⟨x, x1, x2, x3⟩, e1, e2⟩

/-- `v` agrees with `val` except perhaps where diagonal elements are stored -/
def AgreeOff (P : ℕ → ℕ → Prop) (val v : Arr R) : Prop :=
  v.size = val.size ∧ ∀ k, (∀ i, ¬ P i k) → v.get k = val.get k

theorem AgreeOff.refl (P : ℕ → ℕ → Prop) (val : Arr R) : AgreeOff P val val := ⟨rfl, fun _ _ => rfl⟩

/-- `P i p`: the diagonal element of row `i` is at position `p` of the value array -/
structure DiagLoc [AddCommMonoid R] (n : ℕ) (P : ℕ → ℕ → Prop) (val : Arr R) (entry : Arr R → ℕ → ℕ → R) : Prop where
  uniq : ∀ i p p', P i p → P i p' → p = p'
  lt : ∀ i p, P i p → i < n ∧ p < val.size
  stored : ∀ v, AgreeOff P val v → ∀ i p, P i p → entry v i i = v.get p
  absent : ∀ v, AgreeOff P val v → ∀ i, i < n → (∀ p, ¬ P i p) → entry v i i = 0

structure DiagStore [AddCommMonoid R] (n : ℕ) (P : ℕ → ℕ → Prop) (val : Arr R) (entry : Arr R → ℕ → ℕ → R) : Prop
    extends DiagLoc n P val entry where
  back : ∀ i i' p, P i p → P i' p → i = i'
  off : ∀ v, AgreeOff P val v → ∀ i j, i < n → i ≠ j → entry v i j = entry val i j

section post
variable [AddCommMonoid R] {n : ℕ} {P : ℕ → ℕ → Prop} {val : Arr R} {entry : Arr R → ℕ → ℕ → R}

theorem DiagLoc.injGet (h : DiagLoc n P val entry) : PairsInj P (fun i _ => i) := by
  rintro i p i' p' h1 h2 h3
  simp only at h3
  subst h3
  exact ⟨rfl, h.uniq _ _ _ h1 h2⟩

theorem DiagStore.injShift (h : DiagStore n P val entry) : PairsInj P (fun _ p => p) := by
  rintro i p i' p' h1 h2 h3
  simp only at h3
  subst h3
  exact ⟨h.back _ _ _ h1 h2, rfl⟩

theorem DiagLoc.stepGet (h : DiagLoc n P val entry) {sz : ℕ} (hd : n ≤ sz) :
    PairStep P (fun i _ => i) (fun _ p _ => val.get p) sz (fun i p (d : Arr R) => do
      let v ← val.rd p
      d.wr i v) := by
  intro i p z hp hz
  have := h.lt i p hp
  simp only [Ok_bind, Ok_rd, Ok_wr]
  exact ⟨by omega, by omega, trivial⟩

theorem DiagLoc.getPost (h : DiagLoc n P val entry) {d d' : Arr R}
    (hu : Upd d (Pairs P (fun i _ => i) (fun _ p _ => val.get p)) d') :
    d'.size = d.size ∧ (∀ i, i < n → (∃ p, P i p) → d'.get i = entry val i i) ∧
      (∀ i, i < n → ¬ (∃ p, P i p) → entry val i i = 0 ∧ d'.get i = d.get i) ∧ SameFrom n d.get d'.get := by
  refine ⟨hu.1, ?_, ?_, ?_⟩
  · rintro i hi ⟨p, hp⟩
    rw [hu.2.1 i _ ⟨i, p, hp, rfl, rfl⟩, h.stored val (AgreeOff.refl P val) i p hp]
  · intro i hi hp
    refine ⟨h.absent val (AgreeOff.refl P val) i hi fun p hp' => hp ⟨p, hp'⟩, hu.2.2 i ?_⟩
    rintro g ⟨i', p, hp', rfl, -⟩
    exact hp ⟨p, hp'⟩
  · intro i hi
    refine hu.2.2 i ?_
    rintro g ⟨i', p, hp', rfl, -⟩
    have := h.lt _ _ hp'; omega

end post

theorem DiagStore.stepShift [AddCommGroup R] {n : ℕ} {P : ℕ → ℕ → Prop} {val : Arr R} {entry : Arr R → ℕ → ℕ → R}
    (h : DiagStore n P val entry) (sigma : R) :
    PairStep P (fun _ p => p) (fun _ _ t => t - sigma) val.size fun _ p value => subAt value p sigma := by
  intro i p z hp hz
  have := h.lt i p hp
  rw [Ok_subAt]
  exact ⟨by omega, rfl⟩

theorem DiagStore.shiftPost [AddCommGroup R] {n : ℕ} {P : ℕ → ℕ → Prop} {val : Arr R} {entry : Arr R → ℕ → ℕ → R}
    (h : DiagStore n P val entry) {sigma : R} {v : Arr R}
    (hu : Upd val (Pairs P (fun _ p => p) (fun _ _ t => t - sigma)) v) :
    AgreeOff P val v ∧ ∀ i j, i < n →
      (i = j → (∃ p, P i p) → entry v i j = entry val i j - sigma) ∧
      (¬ (i = j ∧ ∃ p, P i p) → entry v i j = entry val i j) := by
  have ha : AgreeOff P val v := ⟨hu.1, fun k hk => hu.2.2 k (by rintro g ⟨i, p, hp, rfl, -⟩; exact hk i hp)⟩
  refine ⟨ha, fun i j hi => ⟨?_, ?_⟩⟩
  · rintro rfl ⟨p, hp⟩
    rw [h.stored v ha i p hp, h.stored val (AgreeOff.refl P val) i p hp, hu.2.1 p _ ⟨i, p, hp, rfl, rfl⟩]
  · intro hn
    by_cases hij : i = j
    · subst hij
      have hp : ∀ p, ¬ P i p := fun p hp => hn ⟨rfl, p, hp⟩
      rw [h.absent v ha i hi hp, h.absent val (AgreeOff.refl P val) i hi hp]
    · exact h.off v ha i j hi hij

/-! ### where the formats keep the diagonal -/

def Coo.DiagAt (A : Coo R) (i p : ℕ) : Prop := p < A.nnz ∧ A.row.get p = i ∧ A.col.get p = i
def Msr.DiagAt (A : Msr R) (i p : ℕ) : Prop := i < A.n ∧ p = i
def Dns.DiagAt (A : Dns R) (i p : ℕ) : Prop := i < A.n ∧ p = i * A.n + i
def Dia.DiagAt (A : Dia R) (i p : ℕ) : Prop := i < A.n ∧ ∃ e, e < A.nnd ∧ A.index.get e = 0 ∧ p = e * A.n + i
def Ell.DiagAt (A : Ell R) (i p : ℕ) : Prop := i < A.n ∧ ∃ k, k < A.maxnzr ∧ A.index.get (k * A.n + i) = i ∧
  (∀ l, l < k → A.index.get (l * A.n + i) ≠ i) ∧ p = k * A.n + i
def Bsr.DiagAt (A : Bsr R) (i p : ℕ) : Prop := i < A.n ∧ ∃ b, A.bptr.get (i / A.bnr) ≤ b ∧
  b < A.bptr.get (i / A.bnr + 1) ∧ A.bindex.get b = i / A.bnc ∧
  p = b * (A.bnr * A.bnc) + (i % A.bnc) * A.bnr + i % A.bnr
def Bsc.DiagAt (A : Bsc R) (i p : ℕ) : Prop := i < A.n ∧ ∃ b, A.bptr.get (i / A.bnc) ≤ b ∧
  b < A.bptr.get (i / A.bnc + 1) ∧ A.bindex.get b = i / A.bnr ∧
  p = b * (A.bnr * A.bnc) + (i % A.bnc) * A.bnr + i % A.bnr
def Vbr.DiagAt (A : Vbr R) (i p : ℕ) : Prop := ∃ r b, A.InBlk r b i i ∧ p = A.pos r b i i

variable [AddCommMonoid R]

theorem Coo.diagStore {A : Coo R} (h : A.WF)
    (hd : ∀ k l, k < A.nnz → l < A.nnz → A.row.get k = A.row.get l → A.col.get k = A.col.get l → k = l) :
    DiagStore A.n A.DiagAt A.value fun v => ({ A with value := v } : Coo R).entry where
  uniq := fun i p p' h1 h2 => hd p p' h1.1 h2.1 (h1.2.1.trans h2.2.1.symm) (h1.2.2.trans h2.2.2.symm)
  lt := fun i p h1 => ⟨h1.2.1 ▸ h.row p h1.1, lt_of_lt_of_le h1.1 h.vsz⟩
  stored := by
    rintro v - i p ⟨h1, h2, h3⟩
    unfold Coo.entry
    simp only
    rw [sum_eq_single p, if_pos ⟨h2, h3⟩]
    · intro k hk hkp
      rw [mem_range] at hk
      rw [if_neg fun hc => hkp (hd k p hk h1 (hc.1.trans h2.symm) (hc.2.trans h3.symm))]
    · intro hp; exact absurd (mem_range.2 h1) hp
  absent := by
    rintro v - i - hp
    unfold Coo.entry
    refine sum_eq_zero fun k hk => ?_
    simp only at hk ⊢
    rw [mem_range] at hk
    rw [if_neg fun hc => hp k ⟨hk, hc⟩]
  back := fun i i' p h1 h2 => h1.2.1.symm.trans h2.2.1
  off := by
    rintro v hv i j - hij
    unfold Coo.entry
    refine sum_congr rfl fun k hk => ?_
    simp only
    split
    · next hc => exact hv.2 k fun i' h' => hij (by rw [← hc.1, ← hc.2, h'.2.1, h'.2.2])
    · rfl

theorem Msr.diagStore {A : Msr R} (h : A.WF)
    (hd : ∀ i, i < A.n → ∀ k l, A.index.get i ≤ k → k < A.index.get (i + 1) → A.index.get i ≤ l →
      l < A.index.get (i + 1) → A.index.get k ≠ i ∧ (A.index.get k = A.index.get l → k = l)) :
    DiagStore A.n A.DiagAt A.value fun v => ({ A with value := v } : Msr R).entry where
  uniq := fun i p p' h1 h2 => h1.2.trans h2.2.symm
  lt := fun i p h1 => ⟨h1.1, by have := h.vsz; have := h1.1; have := h1.2; omega⟩
  stored := by
    rintro v - i p ⟨h1, rfl⟩
    unfold Msr.entry
    simp only [if_true]
    rw [sum_eq_zero, add_zero]
    intro k hk
    rw [mem_Ico] at hk
    rw [if_neg (hd p h1 k k hk.1 hk.2 hk.1 hk.2).1]
  absent := fun v _ i hi hp => absurd ⟨hi, rfl⟩ (hp i)
  back := fun i i' p h1 h2 => h1.2.symm.trans h2.2
  off := by
    rintro v hv i j hi hij
    unfold Msr.entry
    simp only [if_neg hij]
    congr 1
    refine sum_congr rfl fun k hk => ?_
    rw [mem_Ico] at hk
    have := h.rangeA hi hk.1 hk.2
    rw [hv.2 k fun i' h' => by have := h'.1; have := h'.2; omega]

theorem Dns.diagStore {A : Dns R} (h : A.WF) (hnp : A.np = A.n) :
    DiagStore A.n A.DiagAt A.value fun v => ({ A with value := v } : Dns R).entry where
  uniq := fun i p p' h1 h2 => h1.2.trans h2.2.symm
  lt := fun i p h1 => ⟨h1.1, by
    have hv := h.vsz; have := flat_lt h1.1 h1.1; have := h1.2; rw [hnp] at hv; omega⟩
  stored := by
    rintro v - i p ⟨h1, rfl⟩; rfl
  absent := fun v _ i hi hp => absurd ⟨hi, rfl⟩ (hp (i * A.n + i))
  back := fun i i' p h1 h2 => (flat_inj h1.1 h2.1 (h1.2.symm.trans h2.2)).1
  off := by
    rintro v hv i j hi hij
    refine hv.2 _ fun i' h' => ?_
    have := flat_inj hi h'.1 h'.2
    omega

theorem Dia.diagStore {A : Dia R} (h : A.WF)
    (hd : ∀ d e, d < A.nnd → e < A.nnd → A.index.get d = A.index.get e → d = e)
    (hr : ∃ e, e < A.nnd ∧ A.index.get e = 0) :
    DiagStore A.n A.DiagAt A.value fun v => ({ A with value := v } : Dia R).entry where
  uniq := by
    rintro i p p' ⟨h1, e, e1, e2, rfl⟩ ⟨-, e', e1', e2', rfl⟩
    rw [hd e e' e1 e1' (e2.trans e2'.symm)]
  lt := by
    rintro i p ⟨h1, e, e1, e2, rfl⟩
    exact ⟨h1, lt_of_lt_of_le (flat_lt e1 h1) h.vsz⟩
  stored := by
    rintro v - i p ⟨h1, e, e1, e2, rfl⟩
    unfold Dia.entry
    simp only [sub_self]
    rw [sum_eq_single e, if_pos e2]
    · intro k hk hke
      rw [mem_range] at hk
      rw [if_neg fun hc => hke (hd k e hk e1 (hc.trans e2.symm))]
    · intro hp; exact absurd (mem_range.2 e1) hp
  absent := by
    obtain ⟨e, e1, e2⟩ := hr
    exact fun v _ i hi hp => absurd ⟨hi, e, e1, e2, rfl⟩ (hp (e * A.n + i))
  back := by
    rintro i i' p ⟨h1, e, e1, e2, rfl⟩ ⟨h1', e', e1', e2', h⟩
    exact (flat_inj h1 h1' h).2
  off := by
    rintro v hv i j hi hij
    unfold Dia.entry
    refine sum_congr rfl fun k hk => ?_
    simp only
    split
    · next hc =>
      refine hv.2 _ ?_
      rintro i' ⟨h1, e, e1, e2, h3⟩
      obtain ⟨rfl, rfl⟩ := flat_inj hi h1 h3
      omega
    · rfl

theorem Ell.diagStore {A : Ell R} (h : A.WF)
    (hr : ∀ i, i < A.n → ∀ k l, k < l → l < A.maxnzr → A.index.get (k * A.n + i) = i →
      A.index.get (l * A.n + i) = i → A.value.get (l * A.n + i) = 0) :
    DiagStore A.n A.DiagAt A.value fun v => ({ A with value := v } : Ell R).entry where
  uniq := by
    rintro i p p' ⟨h1, e, e1, e2, e3, rfl⟩ ⟨-, e', e1', e2', e3', rfl⟩
    rcases Nat.lt_trichotomy e e' with hl | hl | hl
    · exact absurd e2 (e3' e hl)
    · rw [hl]
    · exact absurd e2' (e3 e' hl)
  lt := by
    rintro i p ⟨h1, e, e1, e2, e3, rfl⟩
    refine ⟨h1, lt_of_lt_of_le (flat_lt e1 h1) ?_⟩
    rw [Nat.mul_comm]; exact h.vsz
  stored := by
    rintro v hv i p ⟨h1, e, e1, e2, e3, rfl⟩
    unfold Ell.entry
    simp only
    rw [sum_eq_single e, if_pos e2]
    · intro k hk hke
      rw [mem_range] at hk
      split
      · next hc =>
        rcases Nat.lt_or_ge k e with hl | hl
        · exact absurd hc (e3 k hl)
        · rw [hv.2, hr i h1 e k (by omega) hk e2 hc]
          rintro i' ⟨h1', e', e1', e2', e3', h3⟩
          obtain ⟨rfl, rfl⟩ := flat_inj h1 h1' h3
          exact e3' e (by omega) e2
      · rfl
    · intro hp; exact absurd (mem_range.2 e1) hp
  absent := by
    rintro v - i hi hp
    unfold Ell.entry
    refine sum_eq_zero fun k hk => ?_
    simp only at hk ⊢
    rw [mem_range] at hk
    rw [if_neg]
    intro hc
    have hex : ∃ k, k < A.maxnzr ∧ A.index.get (k * A.n + i) = i := ⟨k, hk, hc⟩
    classical
    have := Nat.find_spec hex
    exact hp _ ⟨hi, Nat.find hex, this.1, this.2, fun l hl hc' =>
      Nat.find_min hex hl ⟨hl.trans this.1, hc'⟩, rfl⟩
  back := by
    rintro i i' p ⟨h1, e, e1, e2, e3, rfl⟩ ⟨h1', e', e1', e2', e3', h⟩
    exact (flat_inj h1 h1' h).2
  off := by
    rintro v hv i j hi hij
    unfold Ell.entry
    refine sum_congr rfl fun k hk => ?_
    simp only
    split
    · next hc =>
      refine hv.2 _ ?_
      rintro i' ⟨h1, e, e1, e2, e3, h3⟩
      obtain ⟨rfl, rfl⟩ := flat_inj hi h1 h3
      omega
    · rfl

theorem Jad.diagStore {A : Jad R} (h : A.WF)
    (hd : ∀ d e, d < A.maxnzr → e < A.maxnzr → ∀ k, k < A.ptr.get (d + 1) - A.ptr.get d →
      k < A.ptr.get (e + 1) - A.ptr.get e → A.index.get (A.ptr.get d + k) = A.index.get (A.ptr.get e + k) → d = e) :
    DiagStore A.n A.DiagAt A.value fun v => ({ A with value := v } : Jad R).entry where
  uniq := fun i p p' h1 h2 => Jad.DiagAt.unique h hd h1 h2
  lt := fun i p h1 => ⟨(h1.lt h).1, lt_of_lt_of_le (h1.lt h).2 h.vsz⟩
  stored := by
    rintro v - i p hp
    obtain ⟨e, e1, e2, e3, e4, e5⟩ := id hp
    have hp' : A.ptr.get e + (p - A.ptr.get e) = p := by omega
    unfold Jad.entry
    simp only
    have hkey : ∀ x, x < A.maxnzr → ∀ k, k < A.ptr.get (x + 1) - A.ptr.get x → A.row.get k = i →
        A.index.get (A.ptr.get x + k) = i → A.ptr.get x + k = p := fun x hx k hk h1 h2 =>
      Jad.DiagAt.unique h hd ⟨x, hx, by omega, by omega, by rwa [show A.ptr.get x + k - A.ptr.get x = k by omega], h2⟩ hp
    rw [sum_eq_single e]
    · rw [sum_eq_single (p - A.ptr.get e)]
      · rw [hp', if_pos ⟨e4, e5⟩]
      · intro k hk hne
        rw [mem_range] at hk
        rw [if_neg fun hc => hne (by have := hkey e e1 k hk hc.1 hc.2; omega)]
      · intro hp; exact absurd (mem_range.2 (by omega)) hp
    · intro x hx hxe
      rw [mem_range] at hx
      refine sum_eq_zero fun k hk => ?_
      rw [mem_range] at hk
      rw [if_neg fun hc => hxe ?_]
      have := hkey x hx k hk hc.1 hc.2
      exact h.ptr.row_unique hx e1 (k := p) (by omega) (by omega) e2 e3
    · intro hp; exact absurd (mem_range.2 e1) hp
  absent := by
    rintro v - i hi hp
    unfold Jad.entry
    refine sum_eq_zero fun x hx => sum_eq_zero fun k hk => ?_
    simp only at hx hk ⊢
    rw [mem_range] at hx hk
    rw [if_neg fun hc => hp (A.ptr.get x + k) ⟨x, hx, by omega, by omega,
      by rw [show A.ptr.get x + k - A.ptr.get x = k by omega]; exact hc.1, hc.2⟩]
  back := by
    rintro i i' p ⟨e, e1, e2, e3, e4, e5⟩ ⟨e', f1, f2, f3, f4, f5⟩
    omega
  off := by
    rintro v hv i j hi hij
    unfold Jad.entry
    refine sum_congr rfl fun x hx => sum_congr rfl fun k hk => ?_
    simp only at hx hk ⊢
    rw [mem_range] at hx hk
    split
    · next hc =>
      refine hv.2 _ ?_
      rintro i' ⟨e', f1, f2, f3, f4, f5⟩
      have := h.ptr.row_unique hx f1 (k := A.ptr.get x + k) (by omega) (by omega) f2 f3
      subst this
      rw [show A.ptr.get x + k - A.ptr.get x = k by omega] at f4
      omega
    · rfl

theorem Bsr.diagStore {A : Bsr R} (h : A.WF)
    (hd : ∀ b, b < A.nr → ∀ k l, A.bptr.get b ≤ k → k < A.bptr.get (b + 1) → A.bptr.get b ≤ l →
      l < A.bptr.get (b + 1) → A.bindex.get k = A.bindex.get l → k = l) :
    DiagStore A.n A.DiagAt A.value fun v => ({ A with value := v } : Bsr R).entry where
  uniq := by
    rintro i p p' ⟨h1, b, b1, b2, b3, rfl⟩ ⟨-, b', b1', b2', b3', rfl⟩
    rw [hd _ (div_lt_of_cover h.hbr h.hn h1) b b' b1 b2 b1' b2' (b3.trans b3'.symm)]
  lt := by
    rintro i p ⟨h1, b, b1, b2, b3, rfl⟩
    exact ⟨h1, lt_of_lt_of_le (blk_lt (h.bptr.lt_nnz (div_lt_of_cover h.hbr h.hn h1) b2) (Nat.mod_lt _ h.hbr)
      (Nat.mod_lt _ h.hbc)) h.vsz⟩
  stored := by
    rintro v - i p ⟨h1, b, b1, b2, b3, rfl⟩
    unfold Bsr.entry
    simp only
    rw [sum_eq_single b, if_pos b3]
    · intro k hk hkb
      rw [mem_Ico] at hk
      rw [if_neg fun hc => hkb (hd _ (div_lt_of_cover h.hbr h.hn h1) k b hk.1 hk.2 b1 b2 (hc.trans b3.symm))]
    · intro hp; exact absurd (mem_Ico.2 ⟨b1, b2⟩) hp
  absent := by
    rintro v - i hi hp
    unfold Bsr.entry
    refine sum_eq_zero fun k hk => ?_
    simp only at hk ⊢
    rw [mem_Ico] at hk
    rw [if_neg fun hc => hp _ ⟨hi, k, hk.1, hk.2, hc, rfl⟩]
  back := by
    rintro i i' p ⟨h1, b, b1, b2, b3, rfl⟩ ⟨h1', b', b1', b2', b3', h3⟩
    obtain ⟨rfl, e2, e3⟩ := blk_inj (Nat.mod_lt _ h.hbr) (Nat.mod_lt _ h.hbc) (Nat.mod_lt _ h.hbr) (Nat.mod_lt _ h.hbc) h3
    have := h.bptr.row_unique (div_lt_of_cover h.hbr h.hn h1) (div_lt_of_cover h.hbr h.hn h1') b1 b2 b1' b2'
    rw [← Nat.div_add_mod i A.bnr, ← Nat.div_add_mod i' A.bnr, this, e3]
  off := by
    rintro v hv i j hi hij
    unfold Bsr.entry
    refine sum_congr rfl fun k hk => ?_
    simp only at hk ⊢
    rw [mem_Ico] at hk
    split
    · next hc =>
      refine hv.2 _ ?_
      rintro i' ⟨h1, b, b1, b2, b3, h3⟩
      obtain ⟨rfl, e2, e3⟩ := blk_inj (Nat.mod_lt _ h.hbr) (Nat.mod_lt _ h.hbc) (Nat.mod_lt _ h.hbr) (Nat.mod_lt _ h.hbc) h3
      have h4 := h.bptr.row_unique (div_lt_of_cover h.hbr h.hn hi) (div_lt_of_cover h.hbr h.hn h1) hk.1 hk.2 b1 b2
      have h5 : i = i' := by rw [← Nat.div_add_mod i A.bnr, ← Nat.div_add_mod i' A.bnr, h4, e3]
      have h6 : j = i' := by rw [← Nat.div_add_mod j A.bnc, ← Nat.div_add_mod i' A.bnc, ← b3, ← hc, e2]
      omega
    · rfl

theorem Bsc.diagStore {A : Bsc R} (h : A.WF) (hc : A.n ≤ A.nc * A.bnc)
    (hd : ∀ b, b < A.nc → ∀ k l, A.bptr.get b ≤ k → k < A.bptr.get (b + 1) → A.bptr.get b ≤ l →
      l < A.bptr.get (b + 1) → A.bindex.get k = A.bindex.get l → k = l) :
    DiagStore A.n A.DiagAt A.value fun v i j => if j < A.n then ({ A with value := v } : Bsc R).entry i j else 0 where
  uniq := by
    rintro i p p' ⟨h1, b, b1, b2, b3, rfl⟩ ⟨-, b', b1', b2', b3', rfl⟩
    rw [hd _ (div_lt_of_cover h.hbc hc h1) b b' b1 b2 b1' b2' (b3.trans b3'.symm)]
  lt := by
    rintro i p ⟨h1, b, b1, b2, b3, rfl⟩
    exact ⟨h1, lt_of_lt_of_le (blk_lt (h.bptr.lt_nnz (div_lt_of_cover h.hbc hc h1) b2) (Nat.mod_lt _ h.hbr)
      (Nat.mod_lt _ h.hbc)) h.vsz⟩
  stored := by
    rintro v - i p ⟨h1, b, b1, b2, b3, rfl⟩
    rw [if_pos h1]
    unfold Bsc.entry
    simp only
    rw [sum_eq_single b, if_pos b3]
    · intro k hk hkb
      rw [mem_Ico] at hk
      rw [if_neg fun he => hkb (hd _ (div_lt_of_cover h.hbc hc h1) k b hk.1 hk.2 b1 b2 (he.trans b3.symm))]
    · intro hp; exact absurd (mem_Ico.2 ⟨b1, b2⟩) hp
  absent := by
    rintro v - i hi hp
    rw [if_pos hi]
    unfold Bsc.entry
    refine sum_eq_zero fun k hk => ?_
    simp only at hk ⊢
    rw [mem_Ico] at hk
    rw [if_neg fun hc => hp _ ⟨hi, k, hk.1, hk.2, hc, rfl⟩]
  back := by
    rintro i i' p ⟨h1, b, b1, b2, b3, rfl⟩ ⟨h1', b', b1', b2', b3', h3⟩
    obtain ⟨rfl, e2, e3⟩ := blk_inj (Nat.mod_lt _ h.hbr) (Nat.mod_lt _ h.hbc) (Nat.mod_lt _ h.hbr) (Nat.mod_lt _ h.hbc) h3
    have := h.bptr.row_unique (div_lt_of_cover h.hbc hc h1) (div_lt_of_cover h.hbc hc h1') b1 b2 b1' b2'
    rw [← Nat.div_add_mod i A.bnc, ← Nat.div_add_mod i' A.bnc, this, e2]
  off := by
    rintro v hv i j hi hij
    by_cases hj : j < A.n
    · simp only [if_pos hj]
      unfold Bsc.entry
      refine sum_congr rfl fun k hk => ?_
      simp only at hk ⊢
      rw [mem_Ico] at hk
      split
      · next he =>
        refine hv.2 _ ?_
        rintro i' ⟨h1, b, b1, b2, b3, h3⟩
        obtain ⟨rfl, e2, e3⟩ := blk_inj (Nat.mod_lt _ h.hbr) (Nat.mod_lt _ h.hbc) (Nat.mod_lt _ h.hbr) (Nat.mod_lt _ h.hbc) h3
        have h4 := h.bptr.row_unique (div_lt_of_cover h.hbc hc hj) (div_lt_of_cover h.hbc hc h1) hk.1 hk.2 b1 b2
        have h5 : j = i' := by rw [← Nat.div_add_mod j A.bnc, ← Nat.div_add_mod i' A.bnc, h4, e2]
        have h6 : i = i' := by rw [← Nat.div_add_mod i A.bnr, ← Nat.div_add_mod i' A.bnr, ← b3, ← he, e3]
        omega
      · rfl
    · simp only [if_neg hj]

omit [AddCommMonoid R] in
theorem Vbr.InBlk.unique {A : Vbr R} (h : A.WF)
    (hd : ∀ b, b < A.nr → ∀ k l, A.bptr.get b ≤ k → k < A.bptr.get (b + 1) → A.bptr.get b ≤ l →
      l < A.bptr.get (b + 1) → A.bindex.get k = A.bindex.get l → k = l)
    {r b r' b' i j : ℕ} (h1 : A.InBlk r b i j) (h2 : A.InBlk r' b' i j) : r = r' ∧ b = b' := by
  have hr := h.row.row_unique h1.hr h2.hr h1.i1 h1.i2 h2.i1 h2.i2
  subst hr
  refine ⟨rfl, hd r h1.hr b b' h1.b1 h1.b2 h2.b1 h2.b2 ?_⟩
  exact h.col.row_unique (h.idx b (h.bptr.lt_nnz h1.hr h1.b2)) (h.idx b' (h.bptr.lt_nnz h1.hr h2.b2))
    h1.j1 h1.j2 h2.j1 h2.j2

theorem Vbr.diagLoc {A : Vbr R} (h : A.WF)
    (hd : ∀ b, b < A.nr → ∀ k l, A.bptr.get b ≤ k → k < A.bptr.get (b + 1) → A.bptr.get b ≤ l →
      l < A.bptr.get (b + 1) → A.bindex.get k = A.bindex.get l → k = l) :
    DiagLoc A.n A.DiagAt A.value fun v => ({ A with value := v } : Vbr R).entry where
  uniq := by
    rintro i p p' ⟨r, b, h1, rfl⟩ ⟨r', b', h1', rfl⟩
    obtain ⟨rfl, rfl⟩ := h1.unique h hd h1'
    rfl
  lt := by
    rintro i p ⟨r, b, h1, rfl⟩
    have h2 := h.row.lt_nnz h1.hr h1.i2
    have h3 := h.vsz r h1.hr b h1.b1 h1.b2
    have h4 := flat_lt (i := i - A.col.get (A.bindex.get b)) (n := A.col.get (A.bindex.get b + 1) - A.col.get (A.bindex.get b))
      (j := i - A.row.get r) (m := A.row.get (r + 1) - A.row.get r) (by have := h1.j1; have := h1.j2; omega)
      (by have := h1.i1; have := h1.i2; omega)
    refine ⟨h2, ?_⟩
    unfold Vbr.pos
    omega
  stored := by
    rintro v - i p ⟨r, b, h1, rfl⟩
    unfold Vbr.entry
    simp only
    have hb : ∀ r' b', r' < A.nr → A.bptr.get r' ≤ b' → b' < A.bptr.get (r' + 1) → (r' ≠ r ∨ b' ≠ b) →
        ({ A with value := v } : Vbr R).blockEntry r' b' i i = 0 := by
      intro r' b' hr' hb1 hb2 hne
      unfold Vbr.blockEntry
      refine if_neg fun hc => ?_
      obtain ⟨rfl, rfl⟩ := h1.unique h hd ⟨hr', hb1, hb2, hc.1.1, hc.1.2, hc.2.1, hc.2.2⟩
      rcases hne with hne | hne <;> exact hne rfl
    rw [sum_eq_single r]
    · rw [sum_eq_single b]
      · unfold Vbr.blockEntry
        simp only
        rw [if_pos ⟨⟨h1.i1, h1.i2⟩, h1.j1, h1.j2⟩]; rfl
      · intro b' hb' hne
        rw [mem_Ico] at hb'
        exact hb r b' h1.hr hb'.1 hb'.2 (Or.inr hne)
      · intro hp; exact absurd (mem_Ico.2 ⟨h1.b1, h1.b2⟩) hp
    · intro r' hr' hne
      rw [mem_range] at hr'
      refine sum_eq_zero fun b' hb' => ?_
      rw [mem_Ico] at hb'
      exact hb r' b' hr' hb'.1 hb'.2 (Or.inl hne)
    · intro hp; exact absurd (mem_range.2 h1.hr) hp
  absent := by
    rintro v - i hi hp
    unfold Vbr.entry
    refine sum_eq_zero fun r hr => sum_eq_zero fun b hb => ?_
    simp only at hr hb
    rw [mem_range] at hr
    rw [mem_Ico] at hb
    unfold Vbr.blockEntry
    refine if_neg fun hc => hp _ ⟨r, b, ⟨hr, hb.1, hb.2, hc.1.1, hc.1.2, hc.2.1, hc.2.2⟩, rfl⟩

theorem Vbr.diagStore {A : Vbr R} (h : A.WF) (hp : (AnyMat.vbr A).Packed)
    (hd : ∀ b, b < A.nr → ∀ k l, A.bptr.get b ≤ k → k < A.bptr.get (b + 1) → A.bptr.get b ≤ l →
      l < A.bptr.get (b + 1) → A.bindex.get k = A.bindex.get l → k = l) :
    DiagStore A.n A.DiagAt A.value fun v => ({ A with value := v } : Vbr R).entry where
  toDiagLoc := Vbr.diagLoc h hd
  back := by
    rintro i i' p ⟨r, b, h1, rfl⟩ ⟨r', b', h1', h3⟩
    exact (Vbr.pos_inj h hp h1 h1' h3).2.2.1
  off := by
    rintro v hv i j hi hij
    unfold Vbr.entry
    refine sum_congr rfl fun r hr => sum_congr rfl fun b hb => ?_
    simp only at hr hb
    rw [mem_range] at hr
    rw [mem_Ico] at hb
    unfold Vbr.blockEntry
    simp only
    split
    · next hc =>
      refine hv.2 _ ?_
      rintro i' ⟨r', b', h1', h3⟩
      have := Vbr.pos_inj h hp (r := r) (b := b) (i := i) (j := j)
        ⟨hr, hb.1, hb.2, hc.1.1, hc.1.2, hc.2.1, hc.2.2⟩ h1' h3
      omega
    · rfl

end Lis
