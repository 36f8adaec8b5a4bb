import Verif.Lemmas.Assembly

/-! `lis_matrix_set_value` step by step. -/

namespace Lis
open Finset
variable {R : Type}

/-- the row buffers of a matrix being assembled -/
def AMat.bufs (A : AMat R) : Bufs R := ⟨A.wnnz.getD ⟨0, fun _ => 0⟩, A.wrow, A.widx, A.wval⟩

/-- what the assembled-so-far matrix holds at `(i,j)` -/
def AMat.mat [AddCommMonoid R] (A : AMat R) (i j : ℕ) : R :=
  if A.status = .assembling then A.bufs.entry i j else 0

def AMat.stored (A : AMat R) (i j : ℕ) : Prop := A.status = .assembling ∧ A.bufs.Stored i j

/-- states reachable by creating, sizing and assembling a (serial) matrix with a positive row
increment -/
structure AMat.Ready (A : AMat R) : Prop where
  annz : 0 < A.annz
  base : A.base = 0
  sq : A.n = A.gn
  st : (A.status = .null ∧ ∀ w, A.wnnz = some w → A.n ≤ w.size) ∨
    (A.status = .assembling ∧ (∃ w, A.wnnz = some w) ∧ A.bufs.Inv A.n A.gn)

theorem Ok_fillConst {α : Type} {n : ℕ} {a : Arr α} {v : α} (h : n ≤ a.size) {Q : Arr α → Prop}
    (hq : ∀ b : Arr α, b.size = a.size → (∀ i, i < n → b.get i = v) → Q b) :
    Ok (loop 0 n a fun k w => w.wr k v) Q := by
  refine Ok_loop_fill (fun _ => v) ?_ (fun b h1 h2 _ => hq b h1 fun i hi => h2 i (Nat.zero_le _) hi)
  intro i y _ hi hs _ _
  simp only [Ok_wr]
  exact ⟨by omega, trivial⟩

theorem mallocRco_spec (J : Junk R) {n gn : ℕ} {w : Arr ℕ} (hw : n ≤ w.size) :
    Ok (mallocRco J n w) fun p => (⟨w, p.1, p.2.1, p.2.2⟩ : Bufs R).Inv n gn ∧
      ∀ i, i < n → p.1.get i = 0 := by
  unfold mallocRco
  simp only [Ok_bind, Ok_pure]
  refine Ok_loop_le (fun i (p : Arr (Arr ℕ) × Arr (Arr R)) => p.1.size = n ∧ p.2.size = n ∧
    ∀ k, k < i → (p.1.get k).size = w.get k ∧ (p.2.get k).size = w.get k) (Nat.zero_le _)
    ⟨rfl, rfl, by omega⟩ ?_ ?_
  · rintro i p _ hi ⟨hp1, hp2, hp3⟩
    simp only [Ok_bind, Ok_rd, Ok_wr, Ok_pure]
    refine ⟨by omega, by omega, by omega, by simpa, by simpa, fun k hk => ?_⟩
    by_cases hki : k = i
    · subst hki; simp
    · simp only [Arr.set_get_ne _ _ hki]; exact hp3 k (by omega)
  · rintro p ⟨hp1, hp2, hp3⟩
    refine Ok_fillConst (by simp) fun b hb1 hb2 => ?_
    simp only [Arr.malloc_size] at hb1
    refine ⟨⟨hw, by simp [hb1], by simp [hp1], by simp [hp2], fun i hi => (hp3 i hi).1,
      fun i hi => (hp3 i hi).2, fun i hi => ?_, fun i hi k hk => ?_, fun i hi k l hk => ?_⟩, hb2⟩
    · simp [hb2 i hi]
    · simp [hb2 i hi] at hk
    · simp [hb2 i hi] at hk

/-- allocation on first use -/
theorem setValue_start [AddCommMonoid R] (J : Junk R) (A : AMat R) (h : A.Ready) :
    Ok (if A.status = .null then do
          let w ← match A.wnnz with
            | none => loop 0 A.n (.malloc A.n (J.nat 0)) fun k (w : Arr ℕ) => w.wr k A.annz
            | some w => pure w
          let (wrow, widx, wval) ← mallocRco J A.n w
          pure { A with wnnz := some w, wrow, widx, wval, status := .assembling }
        else pure A : Option (AMat R))
      fun A' => A'.status = .assembling ∧ (∃ w, A'.wnnz = some w) ∧ A'.bufs.Inv A.n A.gn ∧
        A'.n = A.n ∧ A'.gn = A.gn ∧ A'.base = A.base ∧ A'.origin = A.origin ∧ A'.annz = A.annz ∧
        (∀ i j, i < A.n → A'.mat i j = A.mat i j) ∧
        ∀ i j, i < A.n → (A'.stored i j ↔ A.stored i j) := by
  rcases h.st with ⟨hs, hw⟩ | ⟨hs, hw, hI⟩
  · have main : ∀ w : Arr ℕ, A.n ≤ w.size → Ok (do
          let (wrow, widx, wval) ← mallocRco J A.n w
          pure { A with wnnz := some w, wrow, widx, wval, status := .assembling } : Option (AMat R))
        fun A' => A'.status = .assembling ∧ (∃ w, A'.wnnz = some w) ∧ A'.bufs.Inv A.n A.gn ∧
        A'.n = A.n ∧ A'.gn = A.gn ∧ A'.base = A.base ∧ A'.origin = A.origin ∧ A'.annz = A.annz ∧
        (∀ i j, i < A.n → A'.mat i j = A.mat i j) ∧
        ∀ i j, i < A.n → (A'.stored i j ↔ A.stored i j) := by
      intro w hw
      rw [Ok_bind]
      refine (mallocRco_spec J (gn := A.gn) hw).mono ?_
      rintro ⟨r, ix, vl⟩ ⟨hI, hz⟩
      simp only [Ok_pure]
      refine ⟨trivial, ⟨w, rfl⟩, hI, trivial, trivial, trivial, trivial, trivial, fun i j hi => ?_,
        fun i j hi => ?_⟩
      · simp only at hz
        simp [AMat.mat, hs, AMat.bufs, Bufs.entry, hz i hi]
      · simp only at hz
        simp [AMat.stored, hs, AMat.bufs, Bufs.Stored, hz i hi]
    rw [if_pos hs]
    cases hw' : A.wnnz with
    | none =>
      rw [Ok_bind]
      refine Ok_fillConst (by simp) fun b hb _ => ?_
      exact main b (by rw [hb]; simp)
    | some w =>
      rw [Ok_bind]
      simp only [Ok_pure]
      exact main w (hw w hw')
  · rw [if_neg (by simp [hs]), Ok_pure]
    exact ⟨hs, hw, hI, rfl, rfl, rfl, rfl, rfl, fun _ _ _ => rfl, fun _ _ _ => Iff.rfl⟩

/-- one call of `lis_matrix_set_value` on a matrix being assembled -/
theorem setValue_step [AddCommMonoid R] (J : Junk R) (A : AMat R) (h : A.Ready) (c : SetCall R) :
    Ok (setValue J c.flag c.i c.j c.value A) fun p =>
      (¬ c.InRange A.origin A.gn → p = (.illArg, A)) ∧ (c.InRange A.origin A.gn → p.1 = .success) ∧
      p.2.Ready ∧ p.2.n = A.n ∧ p.2.gn = A.gn ∧ p.2.origin = A.origin ∧
      (∀ a b, a < A.n → p.2.mat a b = specSet A.origin A.gn A.mat c a b) ∧
      ∀ a b, a < A.n → (p.2.stored a b ↔ A.stored a b ∨ Touched A.origin A.gn [c] a b) := by
  have hna : A.status ≠ .assembled := by rcases h.st with ⟨hs, _⟩ | ⟨hs, _⟩ <;> simp [hs]
  unfold setValue
  rw [if_neg hna]
  have eu : ∀ i : ℤ, (if A.origin = true then i - 1 else i) = userIdx A.origin i := fun _ => rfl
  simp only [eu]
  have bad : ¬ c.InRange A.origin A.gn → ((¬ c.InRange A.origin A.gn → (Err.illArg, A) = (.illArg, A)) ∧
      (c.InRange A.origin A.gn → Err.illArg = .success) ∧
      A.Ready ∧ A.n = A.n ∧ A.gn = A.gn ∧ A.origin = A.origin ∧
      (∀ a b, a < A.n → A.mat a b = specSet A.origin A.gn A.mat c a b) ∧
      ∀ a b, a < A.n → (A.stored a b ↔ A.stored a b ∨ Touched A.origin A.gn [c] a b)) := by
    intro hb
    refine ⟨fun _ => rfl, fun hh => absurd hh hb, h, rfl, rfl, rfl, fun a b _ => ?_, fun a b _ => ?_⟩
    · rw [specSet, if_neg hb]
    · simp [Touched, hb]
  split
  · next hneg =>
    rw [Ok_some]
    exact bad fun hh => by unfold SetCall.InRange at hh; omega
  · split
    · next hbig =>
      rw [Ok_some]
      exact bad fun hh => by unfold SetCall.InRange at hh; omega
    · next hneg hbig =>
      have hin : c.InRange A.origin A.gn := by unfold SetCall.InRange; omega
      rw [Ok_bind]
      refine (setValue_start J A h).mono ?_
      rintro A1 ⟨hs1, ⟨w, hw⟩, hI1, e1, e2, e3, e4, e5, hm1, hst1⟩
      rw [hw]
      have hb0 := h.base
      have hsq := h.sq
      rw [Ok_bind, Ok_some]
      rw [if_neg (by omega), e3, hb0, Nat.sub_zero]
      have hbufs : A1.bufs = ⟨w, A1.wrow, A1.widx, A1.wval⟩ := by simp [AMat.bufs, hw]
      rw [hbufs] at hI1
      have hin0 := hin
      unfold SetCall.InRange at hin
      rw [Ok_bind]
      refine (growRow_spec J hI1 (li := (userIdx A.origin c.i).toNat) (by omega)
        (by rw [e5]; exact h.annz)).mono ?_
      rintro B2 ⟨hI2, hroom, hent2, hst2⟩
      rw [Ok_bind]
      refine (putRow_spec c.flag c.value hI2 (j := (userIdx A.origin c.j).toNat) (by omega) (by omega)
        hroom).mono ?_
      rintro B3 ⟨hI3, hent3, hst3⟩
      rw [Ok_pure]
      refine ⟨fun hh => absurd hin hh, fun _ => rfl, ?_, e1, e2, e4, fun a b ha => ?_, fun a b ha => ?_⟩
      · refine ⟨by simpa [e5] using h.annz, by simpa [e3] using hb0, by simpa [e1, e2] using hsq,
          Or.inr ⟨hs1, ⟨_, rfl⟩, ?_⟩⟩
        simpa [AMat.bufs, e1, e2] using hI3
      · have hm1' := hm1 a b ha
        simp only [AMat.mat, hs1, if_true, AMat.bufs, Option.getD_some, hw] at hm1' ⊢
        rw [hent3 a b ha, hent2 a b ha, hm1', specSet, if_pos hin0]
        have : (a = (userIdx A.origin c.i).toNat ∧ b = (userIdx A.origin c.j).toNat) ↔
            ((a : ℤ) = userIdx A.origin c.i ∧ (b : ℤ) = userIdx A.origin c.j) := by omega
        simp only [this]
        rfl
      · have hs1' := hst1 a b ha
        simp only [AMat.stored, hs1, AMat.bufs, Option.getD_some, hw, true_and] at hs1' ⊢
        rw [hst3 a b ha, hst2 a b ha, hs1']
        have : (a = (userIdx A.origin c.i).toNat ∧ b = (userIdx A.origin c.j).toNat) ↔
            ((a : ℤ) = userIdx A.origin c.i ∧ (b : ℤ) = userIdx A.origin c.j) := by omega
        simp only [this, Touched, List.mem_singleton, exists_eq_left]
        have hin' : c.InRange A.origin A.gn := hin
        simp [hin']

end Lis
