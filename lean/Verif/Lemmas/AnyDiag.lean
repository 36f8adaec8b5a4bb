import Verif.Lemmas.AnyOps
import Verif.Props.AnyScaleVbr
import Verif.Props.AnyScaleBlk
import Verif.Props.AnyScale

/-! The diagonal scans of the formats: each executes its statement once for every stored diagonal element. -/

namespace Lis
open Finset
variable {R α : Type}

/-- the updates made when the statement `f i p` (which updates position `q i p` with `g i p`) is executed for all pairs
of a relation -/
def Pairs (P : ℕ → ℕ → Prop) (q : ℕ → ℕ → ℕ) (g : ℕ → ℕ → α → α) (k : ℕ) (h : α → α) : Prop :=
  ∃ i p, P i p ∧ k = q i p ∧ h = g i p

/-- different pairs update different positions -/
def PairsInj (P : ℕ → ℕ → Prop) (q : ℕ → ℕ → ℕ) : Prop :=
  ∀ i p i' p', P i p → P i' p' → q i p = q i' p' → i = i' ∧ p = p'

/-- `f i p` updates position `q i p` with `g i p` -/
def PairStep (P : ℕ → ℕ → Prop) (q : ℕ → ℕ → ℕ) (g : ℕ → ℕ → α → α) (sz : ℕ)
    (f : ℕ → ℕ → Arr α → Option (Arr α)) : Prop :=
  ∀ i p z, P i p → z.size = sz → Ok (f i p z) fun z' => z' = z.set (q i p) (g i p (z.get (q i p)))

theorem PairStep.upd {P : ℕ → ℕ → Prop} {q : ℕ → ℕ → ℕ} {g : ℕ → ℕ → α → α} {sz : ℕ}
    {f : ℕ → ℕ → Arr α → Option (Arr α)} (hf : PairStep P q g sz f) {i p : ℕ} {z : Arr α} (hp : P i p)
    (hz : z.size = sz) : Ok (f i p z) (Upd z fun k h => k = q i p ∧ h = g i p) := by
  refine (hf i p z hp hz).mono ?_
  rintro _ rfl
  exact Upd.set z (q i p) (g i p) rfl

/-- adding one pair to those already processed -/
theorem Upd.add {z0 z z' : Arr α} {P : ℕ → ℕ → Prop} {q : ℕ → ℕ → ℕ} {g : ℕ → ℕ → α → α} {P0 P1 : ℕ → ℕ → Prop}
    (hinj : PairsInj P q) {i p : ℕ} (hip : P i p) (h0 : ∀ i p, P0 i p → P i p) (hnew : ¬ P0 i p)
    (h1 : ∀ i' p', P1 i' p' ↔ P0 i' p' ∨ (i' = i ∧ p' = p)) (hz : Upd z0 (Pairs P0 q g) z)
    (hz' : Upd z (fun k h => k = q i p ∧ h = g i p) z') : Upd z0 (Pairs P1 q g) z' := by
  refine ⟨hz'.1.trans hz.1, ?_, ?_⟩
  · rintro k h ⟨i', p', hp', rfl, rfl⟩
    rcases (h1 i' p').1 hp' with hp' | ⟨rfl, rfl⟩
    · rw [hz'.2.2, hz.2.1 _ _ ⟨i', p', hp', rfl, rfl⟩]
      rintro g' ⟨e, -⟩
      obtain ⟨rfl, rfl⟩ := hinj _ _ _ _ (h0 _ _ hp') hip e
      exact hnew hp'
    · rw [hz'.2.1 _ _ ⟨rfl, rfl⟩, hz.2.2]
      rintro g' ⟨i2, p2, hp2, e, -⟩
      obtain ⟨rfl, rfl⟩ := hinj _ _ _ _ (h0 _ _ hp2) hip e.symm
      exact hnew hp2
  · intro k hk
    rw [hz'.2.2 k, hz.2.2 k]
    · rintro g' ⟨i2, p2, hp2, rfl, rfl⟩
      exact hk _ ⟨i2, p2, (h1 _ _).2 (Or.inl hp2), rfl, rfl⟩
    · rintro g' ⟨rfl, rfl⟩
      exact hk _ ⟨i, p, (h1 _ _).2 (Or.inr ⟨rfl, rfl⟩), rfl, rfl⟩

theorem Upd.pcongr {z z' : Arr α} {q : ℕ → ℕ → ℕ} {g : ℕ → ℕ → α → α} {P P' : ℕ → ℕ → Prop}
    (h : Upd z (Pairs P q g) z') (hP : ∀ i p, P' i p ↔ P i p) : Upd z (Pairs P' q g) z' :=
  h.congr fun k g => by unfold Pairs; simp only [hP]

theorem Upd.none (z : Arr α) (q : ℕ → ℕ → ℕ) (g : ℕ → ℕ → α → α) {P : ℕ → ℕ → Prop} (hP : ∀ i p, ¬ P i p) :
    Upd z (Pairs P q g) z :=
  (Upd.same z).congr fun k g => ⟨fun ⟨i, p, h, _⟩ => hP i p h, fun h => h.elim⟩

/-- the rows of a JAD matrix whose diagonal element is stored, and where -/
def Jad.DiagAt (A : Jad R) (i p : ℕ) : Prop :=
  ∃ e, e < A.maxnzr ∧ A.ptr.get e ≤ p ∧ p < A.ptr.get (e + 1) ∧ A.row.get (p - A.ptr.get e) = i ∧ A.index.get p = i

theorem Jad.DiagAt.unique {A : Jad R} (h : A.WF)
    (hd : ∀ d e, d < A.maxnzr → e < A.maxnzr → ∀ k, k < A.ptr.get (d + 1) - A.ptr.get d →
      k < A.ptr.get (e + 1) - A.ptr.get e → A.index.get (A.ptr.get d + k) = A.index.get (A.ptr.get e + k) → d = e)
    {i p p' : ℕ} (hp : A.DiagAt i p) (hp' : A.DiagAt i p') : p = p' := by
  obtain ⟨e, e1, e2, e3, e4, e5⟩ := hp
  obtain ⟨e', f1, f2, f3, f4, f5⟩ := hp'
  have l1 := h.len e e1
  have l2 := h.len e' f1
  have hk := h.inj _ _ (by omega : p - A.ptr.get e < A.n) (by omega : p' - A.ptr.get e' < A.n) (e4.trans f4.symm)
  have := hd e e' e1 f1 (p - A.ptr.get e) (by omega) (by omega)
    (by rw [show A.ptr.get e + (p - A.ptr.get e) = p by omega, hk,
      show A.ptr.get e' + (p' - A.ptr.get e') = p' by omega, e5, f5])
  subst this
  omega

theorem Jad.DiagAt.lt {A : Jad R} (h : A.WF) {i p : ℕ} (hp : A.DiagAt i p) : i < A.n ∧ p < A.nnz := by
  obtain ⟨e, e1, e2, e3, e4, e5⟩ := hp
  have l1 := h.len e e1
  exact ⟨e4 ▸ h.row _ (by omega), h.ptr.lt_nnz e1 e3⟩

theorem Ok_jadDiagScan {A : Jad R} (h : A.WF)
    (hd : ∀ d e, d < A.maxnzr → e < A.maxnzr → ∀ k, k < A.ptr.get (d + 1) - A.ptr.get d →
      k < A.ptr.get (e + 1) - A.ptr.get e → A.index.get (A.ptr.get d + k) = A.index.get (A.ptr.get e + k) → d = e)
    {z : Arr α} {q : ℕ → ℕ → ℕ} {g : ℕ → ℕ → α → α} {f : ℕ → ℕ → Arr α → Option (Arr α)}
    (hinj : PairsInj A.DiagAt q) (hf : PairStep A.DiagAt q g z.size f) :
    Ok (jadDiagScan A z f) (Upd z (Pairs A.DiagAt q g)) := by
  classical
  have hps := h.ptr.size
  have hrs := h.rsz
  have his := h.isz
  obtain ⟨F, hF⟩ : ∃ F : ℕ → Finset ℕ, F = fun m => (range A.n).filter fun r => ∃ p, p < m ∧ A.DiagAt r p := ⟨_, rfl⟩
  have hFle : ∀ m, (F m).card ≤ A.n := fun m => by
    rw [hF]; exact (card_filter_le _ _).trans (by simp)
  obtain ⟨I, hI⟩ : ∃ I : ℕ → ℕ × Arr α → Prop, I = fun m s => s.1 + (F m).card = A.n ∧
    Upd z (Pairs (fun i p => p < m ∧ A.DiagAt i p) q g) s.2 := ⟨_, rfl⟩
  unfold jadDiagScan
  rw [Ok_bind]
  refine Ok_loopB (fun m s => I (A.ptr.get m) s) (Q := fun s => Ok (pure s.2) (Upd z (Pairs A.DiagAt q g))) ?_ ?_ ?_
  · rw [hI]
    refine ⟨?_, Upd.none _ _ _ ?_⟩
    · show A.n + (F (A.ptr.get 0)).card = A.n
      rw [h.ptr.zero, hF]; simp
    · rintro i p ⟨h1, -⟩
      rw [h.ptr.zero] at h1; omega
  · rintro e s - he hs
    have hm := h.ptr.mono e he
    have hl := h.len e he
    simp only [Ok_bind, Ok_rd]
    refine ⟨by omega, by omega, ?_⟩
    refine Ok_loopB (fun i (s : Bool × ℕ × ℕ × Arr α) => s.1 = false ∧ s.2.1 = i - A.ptr.get e ∧ I i s.2.2) ?_ ?_ ?_
    · exact ⟨rfl, by simp, hs⟩
    · rintro i ⟨fl, l, k, y⟩ i1 i2 ⟨rfl, rfl, hy⟩
      simp only at hy
      have hi := h.ptr.lt_nnz he i2
      rw [hI] at hy
      obtain ⟨hy1, hy2⟩ := hy
      simp only at hy1 hy2
      simp only [Ok_bind, Ok_rd, Ok_ite]
      refine ⟨by omega, by omega, fun hrc => ?_, fun hrc => ?_⟩
      · have hD : A.DiagAt (A.row.get (i - A.ptr.get e)) i := ⟨e, he, i1, i2, rfl, hrc.symm⟩
        obtain ⟨r, hr⟩ : ∃ r, r = A.row.get (i - A.ptr.get e) := ⟨_, rfl⟩
        rw [← hr] at hD ⊢
        refine (hf.upd hD hy2.1).mono ?_
        intro y' hy'
        have hrF : r ∉ F i := by
          rw [hF]; simp only [mem_filter, not_and, not_exists]
          rintro - p hp hp'
          have := Jad.DiagAt.unique h hd hD hp'
          omega
        have hF1 : F (i + 1) = insert r (F i) := by
          rw [hF]; ext x
          simp only [mem_filter, mem_insert, mem_range]
          constructor
          · rintro ⟨h1, p, h2, h3⟩
            by_cases hpi : p = i
            · subst hpi
              obtain ⟨e', f1, f2, f3, f4, f5⟩ := h3
              obtain ⟨e'', g1, g2, g3, g4, g5⟩ := hD
              left; omega
            · exact Or.inr ⟨h1, p, by omega, h3⟩
          · rintro (rfl | ⟨h1, p, h2, h3⟩)
            · exact ⟨(hD.lt h).1, i, by omega, hD⟩
            · exact ⟨h1, p, by omega, h3⟩
        have hc : (F (i + 1)).card = (F i).card + 1 := by rw [hF1, card_insert_of_notMem hrF]
        have hle := hFle (i + 1)
        have hI' : I (i + 1) (k - 1, y') := by
          rw [hI]
          refine ⟨by simp only; omega, ?_⟩
          refine Upd.add hinj hD (fun i p hp => hp.2) (fun hp => by omega) ?_ hy2 hy'
          intro i' p'
          constructor
          · rintro ⟨h1, h2⟩
            by_cases hpi : p' = i
            · subst hpi
              obtain ⟨e', f1, f2, f3, f4, f5⟩ := h2
              obtain ⟨e'', g1, g2, g3, g4, g5⟩ := hD
              exact Or.inr ⟨by omega, rfl⟩
            · exact Or.inl ⟨by omega, h2⟩
          · rintro (⟨h1, h2⟩ | ⟨rfl, rfl⟩)
            · exact ⟨by omega, h2⟩
            · exact ⟨by omega, hD⟩
        refine ⟨fun hk => ?_, fun hk => ?_⟩
        · simp only [Ok_pure, if_true]
          rw [hI] at hI'
          refine hI'.2.pcongr fun i' p' => ⟨fun hp => ⟨?_, hp⟩, fun hp => hp.2⟩
          have hcn : (F (i + 1)).card = A.n := by have := hI'.1; simp only at this; omega
          have hall : F (i + 1) = range A.n := by
            refine eq_of_subset_of_card_le ?_ ?_
            · rw [hF]; exact filter_subset _ _
            · rw [hcn]; simp
          have : i' ∈ F (i + 1) := by rw [hall]; exact mem_range.2 (hp.lt h).1
          rw [hF] at this
          obtain ⟨-, p2, h1, h2⟩ := mem_filter.1 this
          rw [Jad.DiagAt.unique h hd hp h2]; exact h1
        · simp only [Ok_pure, Bool.false_eq_true, if_false]
          exact ⟨trivial, by omega, hI'⟩
      · simp only [Ok_pure, Bool.false_eq_true, if_false]
        refine ⟨trivial, by omega, ?_⟩
        have hno : ∀ x, ¬ A.DiagAt x i := by
          rintro x ⟨e', f1, f2, f3, f4, f5⟩
          have := h.ptr.row_unique he f1 i1 i2 f2 f3
          subst this
          omega
        rw [hI]
        have hiff : ∀ x p, (p < i + 1 ∧ A.DiagAt x p) ↔ (p < i ∧ A.DiagAt x p) := by
          intro x p
          refine ⟨fun ⟨h1, h2⟩ => ⟨?_, h2⟩, fun ⟨h1, h2⟩ => ⟨by omega, h2⟩⟩
          rcases Nat.lt_or_ge p i with h3 | h3
          · exact h3
          · obtain rfl : p = i := by omega
            exact absurd h2 (hno x)
        refine ⟨?_, hy2.pcongr hiff⟩
        have : F (i + 1) = F i := by rw [hF]; simp only [hiff]
        rw [this]; exact hy1
    · rintro ⟨fl, l, k, y⟩ ⟨rfl, -, hy⟩
      rw [show max (A.ptr.get e) (A.ptr.get (e + 1)) = A.ptr.get (e + 1) by omega] at hy
      simpa only [Ok_pure, Bool.false_eq_true, if_false] using hy
  · rintro s hs
    rw [show max 0 A.maxnzr = A.maxnzr by omega, hI] at hs
    rw [Ok_pure]
    exact hs.2.pcongr fun i p => ⟨fun hp => ⟨by have := (hp.lt h).2; rw [h.ptr.last]; exact this, hp⟩, fun hp => hp.2⟩

end Lis
