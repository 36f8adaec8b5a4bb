import Verif.Lemmas.Ilu4
import Verif.Props.CsrSolve
import Verif.Props.Precon
import Mathlib.Tactic.FieldSimp

/-!
# C28: ILU(p) preconditioner (CSR matrices)

`createIlukCsr_spec`: the factors have exactly the level-of-fill pattern, and `(I+L)(D̂+U)` agrees with `A` on it.
`psolveIluk_spec`, `psolvehIluk_spec`: applying the preconditioner solves `(I+L)(D̂+U) z = r` (conjugate-transposed).
`precon->D` holds the reciprocals of the pivots `D̂`.
-/

namespace Lis
open Finset
variable {R : Type}

/-- the factors can be walked: sizes, `L` strictly lower, `U` strictly upper triangular -/
structure IluFact.WF (n : ℕ) (F : IluFact R) : Prop where
  nl : F.L.nnz.size = n
  nu : F.U.nnz.size = n
  il : ∀ i, i < n → (F.L.index i).size = F.L.nnz.get i
  iu : ∀ i, i < n → (F.U.index i).size = F.U.nnz.get i
  vl : ∀ i, i < n → (F.L.value i).size = F.L.nnz.get i
  vu : ∀ i, i < n → (F.U.value i).size = F.U.nnz.get i
  d : n ≤ F.D.size
  low : ∀ i p, i < n → p < F.L.nnz.get i → (F.L.index i).get p < i
  up : ∀ i p, i < n → p < F.U.nnz.get i → i < (F.U.index i).get p ∧ (F.U.index i).get p < n

/-- position `(i,j)` is present in the factor -/
def IluMat.Has (M : IluMat R) (i j : ℕ) : Prop := ∃ p, p < M.nnz.get i ∧ (M.index i).get p = j

theorem IluMat.entry_absent [AddCommMonoid R] {M : IluMat R} {i j : ℕ} (h : ¬ M.Has i j) : M.entry i j = 0 := by
  unfold IluMat.entry
  refine sum_eq_zero fun t ht => if_neg fun e => h ⟨t, mem_range.1 ht, e⟩

section solve
variable [CommRing R]

theorem upd_same (h : Vecs R) (x i : ℕ) : h.upd x i ((h x).value.get i) = h := by
  funext w
  unfold Vecs.upd
  by_cases e : w = x
  · subst e
    rw [if_pos rfl]
    have : (h w).value.set i ((h w).value.get i) = (h w).value := by
      show (⟨_, _⟩ : Arr R) = _
      congr 1
      funext j
      by_cases e : j = i
      · rw [if_pos e, e]
      · rw [if_neg e]
    rw [this]
  · rw [if_neg e]

theorem upd_upd (h : Vecs R) (x i : ℕ) (a b : R) : (h.upd x i a).upd x i b = h.upd x i b := by
  funext w
  unfold Vecs.upd
  by_cases e : w = x
  · rw [if_pos e, if_pos e, if_pos rfl]
    congr 1
    show (⟨_, _⟩ : Arr R) = ⟨_, _⟩
    congr 1
    funext j
    by_cases e : j = i
    · rw [if_pos e, if_pos e]
    · rw [if_neg e, if_neg e, Arr.set_get_ne _ _ e]
  · rw [if_neg e, if_neg e, if_neg e]

theorem Ok_vwr' {h : Vecs R} {x i : ℕ} {a : R} {Q : Vecs R → Prop} :
    Ok (vwr h x i a) Q ↔ i < (h x).value.size ∧ Q (h.upd x i a) := by
  rw [Ok_vwr]; rfl

/-- `Σ_t value[i][t] * u(index[i][t])` -/
def IluMat.dot (M : IluMat R) (i : ℕ) (u : ℕ → R) : R :=
  ∑ t ∈ range (M.nnz.get i), (M.value i).get t * u ((M.index i).get t)

theorem IluMat.dot_entry {M : IluMat R} {i n : ℕ} (h : ∀ p, p < M.nnz.get i → (M.index i).get p < n) (u : ℕ → R) :
    M.dot i u = ∑ j ∈ range n, M.entry i j * u j :=
  sum_by_col fun k hk => h k (mem_range.1 hk)

theorem IluMat.dot_congr {M : IluMat R} {i : ℕ} {u v : ℕ → R}
    (h : ∀ p, p < M.nnz.get i → u ((M.index i).get p) = v ((M.index i).get p)) : M.dot i u = M.dot i v :=
  sum_congr rfl fun t ht => by rw [h t (mem_range.1 ht)]

theorem iluSubRow_spec {M : IluMat R} {x i : ℕ} {h : Vecs R} (hi : i < M.nnz.size) (hx : i < (h x).value.size)
    (h1 : (M.index i).size = M.nnz.get i) (h2 : (M.value i).size = M.nnz.get i)
    (h3 : ∀ p, p < M.nnz.get i → (M.index i).get p ≠ i ∧ (M.index i).get p < (h x).value.size) :
    Ok (iluSubRow M x i h) fun h' => h' = h.upd x i ((h x).value.get i - M.dot i (h x).value.get) := by
  unfold iluSubRow
  rw [Ok_bind, Ok_rd]
  refine ⟨hi, ?_⟩
  refine Ok_loop_le (fun k h' => h' = h.upd x i ((h x).value.get i -
    ∑ t ∈ range k, (M.value i).get t * (h x).value.get ((M.index i).get t))) (Nat.zero_le _) ?_ ?_ fun h h1 => h1
  · rw [range_zero, sum_empty, sub_zero, upd_same]
  · rintro k _ - hk rfl
    obtain ⟨n1, n2⟩ := h3 k hk
    simp only [Ok_bind, Ok_rd, Ok_vrd]
    have hs : ∀ a, ((h.upd x i a) x).value.size = (h x).value.size := fun a => by simp [Vecs.upd]
    refine ⟨by omega, by omega, by rw [hs]; omega, by rw [hs]; omega, ?_⟩
    rw [Ok_vwr', hs, upd_upd, upd_get, if_pos rfl, upd_get, if_neg n1, sum_range_succ]
    refine ⟨hx, ?_⟩
    congr 1
    ring

theorem psolveIluk_eq {n : ℕ} {F : IluFact R} (hF : F.WF n) (b x : ℕ) {h : Vecs R} (hg : h.Good n) :
    Ok (psolveIluk n F b x h) fun h' => OnlyChanged h x n h' ∧ ∃ y : ℕ → R,
      (∀ i, i < n → y i = h.el b i - ∑ j ∈ range n, F.L.entry i j * y j) ∧
      (∀ i, i < n → h'.el x i = F.D.get i * (y i - ∑ j ∈ range n, F.U.entry i j * h'.el x j)) := by
  unfold psolveIluk
  rw [Ok_bind]
  refine (vectorCopy_spec h b x (hg.wf b) (hg.wf x) (by rw [(hg b).1, (hg x).1])).mono ?_
  rintro ⟨_, h1⟩ ⟨-, a⟩
  dsimp only at a ⊢
  have o1 : OnlyChanged h x n h1 := (hg x).1 ▸ a.only
  have g1 : h1.Good n := o1.good hg
  have e1 : ∀ i, i < n → (h1 x).value.get i = h.el b i := fun i hi => by
    rw [a.get, if_pos (by rw [(hg x).1]; exact hi)]
  have nl := hF.nl
  have nu := hF.nu
  have fd := hF.d
  rw [Ok_bind]
  refine Ok_sweepUp (x := x) (fun i u => (h1 x).value.get i - F.L.dot i u) ?_ ?_ ?_
  · intro i u v hi huv
    rw [IluMat.dot_congr fun p hp => huv _ (hF.low i p hi hp)]
  · intro i h2 hi o2 same
    have sz := (o2.good g1 x).2
    refine (iluSubRow_spec (by omega) (by omega) (hF.il i hi) (hF.vl i hi)
      (fun p hp => by have := hF.low i p hi hp; omega)).mono ?_
    rintro _ rfl
    rw [same x i (le_refl _)]
  · intro h2 o2 hy
    have g2 := o2.good g1
    refine Ok_sweepDown (x := x) (fun i u => F.D.get i * ((h2 x).value.get i - F.U.dot i u)) ?_ ?_ ?_
    · intro i u v hi huv
      rw [IluMat.dot_congr fun p hp => by have := hF.up i p hi hp; exact huv _ this.1 this.2]
    · intro i h3 hi o3 same
      have sz := (o3.good g2 x).2
      rw [Ok_bind]
      refine (iluSubRow_spec (by omega) (by omega) (hF.iu i hi) (hF.vu i hi)
        (fun p hp => by have := hF.up i p hi hp; omega)).mono ?_
      rintro _ rfl
      simp only [Ok_bind, Ok_rd, Ok_vrd]
      have hs : ∀ a, ((h3.upd x i a) x).value.size = (h3 x).value.size := fun a => by simp [Vecs.upd]
      refine ⟨by omega, by rw [hs]; omega, ?_⟩
      rw [Ok_vwr', hs, upd_upd, upd_get, if_pos rfl, same x i (le_refl _)]
      exact ⟨by omega, rfl⟩
    · intro h3 o3 hz
      refine ⟨(o1.trans o2).trans o3, (h2 x).value.get, fun i hi => ?_, fun i hi => ?_⟩
      · have := hy i hi
        rw [IluMat.dot_entry (n := n) fun p hp => by have := hF.low i p hi hp; omega, e1 i hi] at this
        exact this
      · have := hz i hi
        rw [IluMat.dot_entry (n := n) fun p hp => (hF.up i p hi hp).2] at this
        exact this

theorem sum_unit {n i : ℕ} (hi : i < n) (f y : ℕ → R) :
    ∑ k ∈ range n, ((if i = k then 1 else 0) + f k) * y k = y i + ∑ k ∈ range n, f k * y k := by
  simp only [add_mul, sum_add_distrib, ite_mul, one_mul, zero_mul]
  rw [sum_ite_eq (range n) i, if_pos (mem_range.2 hi)]

theorem luEntry_mul (n : ℕ) (L U : ℕ → ℕ → R) (d z : ℕ → R) (i : ℕ) (hi : i < n) :
    ∑ j ∈ range n, luEntry n L d U i j * z j =
      (d i * z i + ∑ j ∈ range n, U i j * z j) +
      ∑ k ∈ range n, L i k * (d k * z k + ∑ j ∈ range n, U k j * z j) := by
  have inner : ∀ k, k < n → ∑ j ∈ range n, ((if k = j then d k else 0) + U k j) * z j =
      d k * z k + ∑ j ∈ range n, U k j * z j := fun k hk => by
    simp only [add_mul, sum_add_distrib, ite_mul, zero_mul]
    rw [sum_ite_eq (range n) k, if_pos (mem_range.2 hk)]
  unfold luEntry
  simp only [sum_mul]
  rw [sum_comm]
  have : ∀ k ∈ range n, ∑ j ∈ range n, ((if i = k then (1 : R) else 0) + L i k) * ((if k = j then d k else 0) + U k j) * z j =
      ((if i = k then 1 else 0) + L i k) * (d k * z k + ∑ j ∈ range n, U k j * z j) := fun k hk => by
    rw [← inner k (mem_range.1 hk), mul_sum]
    exact sum_congr rfl fun j _ => by ring
  rw [sum_congr rfl this, sum_unit hi]

end solve

/-- **C28 (psolve).** Applying the ILU preconditioner solves with the product of the stored factors. -/
theorem psolveIluk_spec [Field R] {n : ℕ} {F : IluFact R} (hF : F.WF n) (hd : ∀ i, i < n → F.D.get i ≠ 0) (b x : ℕ)
    {h : Vecs R} (hg : h.Good n) :
    Ok (psolveIluk n F b x h) fun h' => OnlyChanged h x n h' ∧
      SolvesEq n (luEntry n F.L.entry (fun i => (F.D.get i)⁻¹) F.U.entry) (h'.el x) (h.el b) := by
  refine (psolveIluk_eq hF b x hg).mono ?_
  rintro h' ⟨o, y, e1, e2⟩
  refine ⟨o, fun i hi => ?_⟩
  rw [luEntry_mul n _ _ _ _ i hi]
  have hy : ∀ k, k < n → (F.D.get k)⁻¹ * h'.el x k + ∑ j ∈ range n, F.U.entry k j * h'.el x j = y k := fun k hk => by
    have h1 := hd k hk
    have h2 := e2 k hk
    have : (F.D.get k)⁻¹ * h'.el x k = y k - ∑ j ∈ range n, F.U.entry k j * h'.el x j := by
      rw [h2, ← mul_assoc, inv_mul_cancel₀ h1, one_mul]
    rw [this]; ring
  rw [hy i hi, sum_congr rfl fun k hk => by rw [hy k (mem_range.1 hk)], e1 i hi]
  rw [← e1 i hi]
  have := e1 i hi
  linear_combination this

section herm
variable [CommRing R] [StarRing R]

theorem iluScatterH_spec {M : IluMat R} {x i n : ℕ} {h0 h : Vecs R} (hc : OnlyChanged h0 x n h) (hi : i < M.nnz.size)
    (hx : i < (h x).value.size) (h1 : (M.index i).size = M.nnz.get i) (h2 : (M.value i).size = M.nnz.get i)
    (h3 : ∀ p, p < M.nnz.get i → (M.index i).get p ≠ i ∧ (M.index i).get p < (h x).value.size ∧ (M.index i).get p < n) :
    Ok (iluScatterH star M x i h) fun h' => OnlyChanged h0 x n h' ∧
      ∀ j, (h' x).value.get j = (h x).value.get j - star (M.entry i j) * (h x).value.get i := by
  unfold iluScatterH
  rw [Ok_bind, Ok_rd]
  refine ⟨hi, ?_⟩
  refine Ok_loop_le (fun k h' => OnlyChanged h0 x n h' ∧ (h' x).value.size = (h x).value.size ∧
    ∀ j, (h' x).value.get j = (h x).value.get j -
      (∑ t ∈ range k, if (M.index i).get t = j then star ((M.value i).get t) else 0) * (h x).value.get i) (Nat.zero_le _)
    ⟨hc, rfl, fun j => by simp⟩ ?_ ?_
  · rintro k h' - hk ⟨a1, a2, a3⟩
    obtain ⟨n1, n2, n3⟩ := h3 k hk
    have keep : (h' x).value.get i = (h x).value.get i := by
      rw [a3 i, sum_eq_zero, zero_mul, sub_zero]
      intro t ht
      exact if_neg (h3 t (by rw [mem_range] at ht; omega)).1
    simp only [Ok_bind, Ok_rd, Ok_vrd]
    refine ⟨by omega, by omega, by omega, by omega, ?_⟩
    rw [Ok_vwr', keep]
    refine ⟨by omega, a1.upd n3 _, by simp [Vecs.upd, a2], fun j => ?_⟩
    rw [upd_get, sum_range_succ]
    split
    · next hj => rw [hj, if_pos rfl, a3]; ring
    · next hj => rw [if_neg fun h => hj h.symm, a3, add_zero]
  · rintro h' ⟨a1, a2, a3⟩
    refine ⟨a1, fun j => ?_⟩
    rw [a3]
    congr 2
    unfold IluMat.entry
    rw [star_sum]
    refine sum_congr rfl fun t _ => ?_
    split
    · rfl
    · exact (star_zero R).symm

theorem psolvehIluk_eq {n : ℕ} {F : IluFact R} (hF : F.WF n) (b x : ℕ) {h : Vecs R} (hg : h.Good n) :
    Ok (psolvehIluk star n F b x h) fun h' => OnlyChanged h x n h' ∧ ∃ y : ℕ → R,
      (∀ r, r < n → y r = star (F.D.get r) * (h.el b r - ∑ j ∈ range n, star (F.U.entry j r) * y j)) ∧
      (∀ r, r < n → h'.el x r = y r - ∑ j ∈ range n, star (F.L.entry j r) * h'.el x j) := by
  unfold psolvehIluk
  rw [Ok_bind]
  refine (vectorCopy_spec h b x (hg.wf b) (hg.wf x) (by rw [(hg b).1, (hg x).1])).mono ?_
  rintro ⟨_, h1⟩ ⟨-, a⟩
  dsimp only at a ⊢
  have o1 : OnlyChanged h x n h1 := (hg x).1 ▸ a.only
  have g1 : h1.Good n := o1.good hg
  have e1 : ∀ i, i < n → h1.el x i = h.el b i := fun i hi => by
    show (h1 x).value.get i = _
    rw [a.get, if_pos (by rw [(hg x).1]; exact hi)]
  have nl := hF.nl
  have nu := hF.nu
  have fd := hF.d
  have zU : ∀ j r, j < n → r ≤ j → star (F.U.entry j r) = 0 := fun j r hj hr => by
    rw [IluMat.entry_absent, star_zero]
    rintro ⟨p, p1, p2⟩
    have := hF.up j p hj p1
    omega
  have zL : ∀ j r, j < n → j ≤ r → star (F.L.entry j r) = 0 := fun j r hj hr => by
    rw [IluMat.entry_absent, star_zero]
    rintro ⟨p, p1, p2⟩
    have := hF.low j p hj p1
    omega
  rw [Ok_bind]
  refine Ok_loop_le (fun i h' => OnlyChanged h1 x n h' ∧
    (∀ r, r < i → h'.el x r = star (F.D.get r) * (h1.el x r - ∑ j ∈ range r, star (F.U.entry j r) * h'.el x j)) ∧
    (∀ r, i ≤ r → r < n → h'.el x r = h1.el x r - ∑ j ∈ range i, star (F.U.entry j r) * h'.el x j)) (Nat.zero_le _)
    ⟨OnlyChanged.refl _ _ _, fun r hr => absurd hr (by omega), fun r _ _ => by simp⟩ ?_ ?_
  · rintro i h2 - hi ⟨c1, c2, c3⟩
    have s1 := (c1.good g1 x).2
    simp only [Ok_bind, Ok_rd, Ok_vrd]
    refine ⟨by omega, by omega, ?_⟩
    rw [Ok_vwr']
    refine ⟨by omega, ?_⟩
    have c4 := c1.upd hi (star (F.D.get i) * (h2 x).value.get i)
    have s2 := (c4.good g1 x).2
    refine (iluScatterH_spec c4 (by omega) (by omega) (hF.iu i hi) (hF.vu i hi)
      (fun p hp => by have := hF.up i p hi hp; omega)).mono ?_
    rintro h3 ⟨d1, d2⟩
    have at_i : h3.el x i = star (F.D.get i) * h2.el x i := by
      show (h3 x).value.get i = _
      rw [d2, upd_get, if_pos rfl, zU i i hi (le_refl _), zero_mul, sub_zero]; rfl
    have low : ∀ j, j < i → h3.el x j = h2.el x j := fun j hj => by
      show (h3 x).value.get j = _
      rw [d2, upd_get, if_neg (by omega), zU i j hi (by omega), zero_mul, sub_zero]; rfl
    have sums : ∀ r m, m ≤ i → ∑ j ∈ range m, star (F.U.entry j r) * h3.el x j =
        ∑ j ∈ range m, star (F.U.entry j r) * h2.el x j := fun r m hm =>
      sum_congr rfl fun j hj => by rw [low j (by rw [mem_range] at hj; omega)]
    refine ⟨d1, fun r hr => ?_, fun r hr hrn => ?_⟩
    · rw [sums r r (by omega)]
      by_cases hri : r = i
      · subst hri; rw [at_i, c3 r le_rfl hi]
      · rw [low r (by omega)]; exact c2 r (by omega)
    · rw [sum_range_succ, sums r i le_rfl, at_i]
      have : h3.el x r = h2.el x r - star (F.U.entry i r) * (star (F.D.get i) * h2.el x i) := by
        show (h3 x).value.get r = _
        rw [d2, upd_get, if_neg (by omega), upd_get, if_pos rfl]; rfl
      rw [this, c3 r (by omega) hrn]; ring
  · rintro h2 ⟨o2, hy, -⟩
    have g2 := o2.good g1
    refine Ok_loopDown (fun i h' => OnlyChanged h2 x n h' ∧
      (∀ r, i ≤ r → r < n → h'.el x r = h2.el x r - ∑ j ∈ Ico (r + 1) n, star (F.L.entry j r) * h'.el x j) ∧
      (∀ r, r < i → h'.el x r = h2.el x r - ∑ j ∈ Ico i n, star (F.L.entry j r) * h'.el x j)) (Nat.zero_le _)
      ⟨OnlyChanged.refl _ _ _, fun r hr hr' => by omega, fun r _ => by simp⟩ ?_ ?_
    · rintro i h3 - hi ⟨c1, c2, c3⟩
      have s1 := (c1.good g2 x).2
      refine (iluScatterH_spec c1 (by omega) (by omega) (hF.il i hi) (hF.vl i hi)
        (fun p hp => by have := hF.low i p hi hp; omega)).mono ?_
      rintro h4 ⟨d1, d2⟩
      have high : ∀ j, i ≤ j → h4.el x j = h3.el x j := fun j hj => by
        show (h4 x).value.get j = _
        rw [d2, zL i j hi hj, zero_mul, sub_zero]; rfl
      have sums : ∀ r m, i ≤ m → ∑ j ∈ Ico m n, star (F.L.entry j r) * h4.el x j =
          ∑ j ∈ Ico m n, star (F.L.entry j r) * h3.el x j := fun r m hm =>
        sum_congr rfl fun j hj => by rw [high j (by rw [mem_Ico] at hj; omega)]
      refine ⟨d1, fun r hr hrn => ?_, fun r hr => ?_⟩
      · rw [sums r (r + 1) (by omega), high r hr]
        by_cases hri : r = i
        · subst hri; exact c3 r (by omega)
        · exact c2 r (by omega) hrn
      · rw [sum_eq_sum_Ico_succ_bot hi, sums r (i + 1) (by omega), high i (le_refl _)]
        have : h4.el x r = h3.el x r - star (F.L.entry i r) * h3.el x i := by
          show (h4 x).value.get r = _
          rw [d2]; rfl
        rw [this, c3 r (by omega)]; ring
    · rintro h3 ⟨o3, hz, -⟩
      refine ⟨(o1.trans o2).trans o3, h2.el x, fun r hr => ?_, fun r hr => ?_⟩
      · rw [hy r hr, e1 r hr]
        congr 2
        refine sum_subset (fun j hj => by rw [mem_range] at *; omega) fun j hj hj' => ?_
        rw [mem_range] at hj hj'
        rw [zU j r hj (by omega), zero_mul]
      · rw [hz r (Nat.zero_le _) hr]
        congr 1
        refine sum_subset (fun j hj => by rw [mem_Ico] at hj; rw [mem_range]; omega) fun j hj hj' => ?_
        rw [mem_range] at hj
        rw [mem_Ico] at hj'
        rw [zL j r hj (by omega), zero_mul]

end herm

/-- **C28 (psolveh).** The conjugate-transposed application solves with the conjugate transpose of the product. -/
theorem psolvehIluk_spec [Field R] [StarRing R] {n : ℕ} {F : IluFact R} (hF : F.WF n)
    (hd : ∀ i, i < n → F.D.get i ≠ 0) (b x : ℕ) {h : Vecs R} (hg : h.Good n) :
    Ok (psolvehIluk star n F b x h) fun h' => OnlyChanged h x n h' ∧
      SolvesEqH n (luEntry n F.L.entry (fun i => (F.D.get i)⁻¹) F.U.entry) (h'.el x) (h.el b) := by
  refine (psolvehIluk_eq hF b x hg).mono ?_
  rintro h' ⟨o, y, e1, e2⟩
  refine ⟨o, fun i hi => ?_⟩
  have hx : ∀ k, k < n → ∑ j ∈ range n, star ((if j = k then (1 : R) else 0) + F.L.entry j k) * h'.el x j = y k :=
    fun k hk => by
      simp only [star_add, apply_ite star, star_one, star_zero]
      simp only [@eq_comm ℕ _ k]
      rw [sum_unit hk fun j => star (F.L.entry j k), e2 k hk]
      rw [← e2 k hk]
      have := e2 k hk
      linear_combination this
  have : ∀ j ∈ range n, star (luEntry n F.L.entry (fun i => (F.D.get i)⁻¹) F.U.entry j i) * h'.el x j =
      ∑ k ∈ range n, star ((if k = i then (F.D.get k)⁻¹ else 0) + F.U.entry k i) *
        (star ((if j = k then (1 : R) else 0) + F.L.entry j k) * h'.el x j) := fun j _ => by
    unfold luEntry
    rw [star_sum, sum_mul]
    refine sum_congr rfl fun k _ => ?_
    rw [star_mul]; ring
  rw [sum_congr rfl this, sum_comm]
  rw [sum_congr rfl fun k hk => by rw [← mul_sum, hx k (mem_range.1 hk)]]
  simp only [star_add, apply_ite star, star_zero, add_mul, sum_add_distrib, ite_mul, zero_mul]
  rw [sum_ite_eq' (range n) i, if_pos (mem_range.2 hi)]
  have h1 := hd i hi
  have h2 : star (F.D.get i)⁻¹ * star (F.D.get i) = 1 := by
    rw [← star_mul, mul_inv_cancel₀ h1, star_one]
  have h3 := e1 i hi
  linear_combination star (F.D.get i)⁻¹ * h3 + (h.el b i - ∑ j ∈ range n, star (F.U.entry j i) * y j) * h2

section create
variable [Field R]

/-- positions of row `i` of `A` -/
def Csr.Pos (A : Csr R) (i j : ℕ) : Prop := i < A.n ∧ A.Stored i j

theorem isIlu_of_eq {A : ℕ → ℕ → R} {n : ℕ} {F : IluFact R} (hF : F.WF n) (he : FactEq A n F)
    (hd : ∀ i, i < n → F.D.get i ≠ 0) {i j : ℕ} (hi : i < n) (hj : j < n) (h : F.L.Has i j ∨ i = j ∨ F.U.Has i j) :
    luEntry n F.L.entry (fun i => (F.D.get i)⁻¹) F.U.entry i j = A i j := by
  have zL : ∀ a c, a < n → a ≤ c → F.L.entry a c = 0 := fun a c ha hc => by
    rw [IluMat.entry_absent]
    rintro ⟨p, p1, p2⟩
    have := hF.low a p ha p1
    omega
  have zU : ∀ a c, a < n → c ≤ a → F.U.entry a c = 0 := fun a c ha hc => by
    rw [IluMat.entry_absent]
    rintro ⟨p, p1, p2⟩
    have := hF.up a p ha p1
    omega
  have hsum : ∑ m ∈ range i, F.L.entry i m * F.U.entry m j = ∑ m ∈ range n, F.L.entry i m * F.U.entry m j := by
    refine sum_subset (fun m hm => by rw [mem_range] at *; omega) fun m hm hm' => ?_
    rw [mem_range] at hm hm'
    rw [zL i m hi (by omega), zero_mul]
  have key : luEntry n F.L.entry (fun i => (F.D.get i)⁻¹) F.U.entry i j =
      (if i = j then (F.D.get i)⁻¹ else 0) + F.U.entry i j + F.L.entry i j * (F.D.get j)⁻¹ +
        ∑ m ∈ range n, F.L.entry i m * F.U.entry m j := by
    unfold luEntry
    rw [sum_unit hi, sum_congr rfl fun k _ => mul_add _ _ _, sum_add_distrib]
    have : ∑ k ∈ range n, F.L.entry i k * (if k = j then (F.D.get k)⁻¹ else 0) = F.L.entry i j * (F.D.get j)⁻¹ := by
      rw [sum_congr rfl fun k _ => mul_ite _ _ _ _, sum_congr rfl fun k _ => by rw [mul_zero],
        sum_ite_eq' (range n) j fun k => F.L.entry i k * (F.D.get k)⁻¹, if_pos (mem_range.2 hj)]
    rw [this]; ring
  rw [key]
  rcases h with h | h | h
  · have hlt : j < i := by obtain ⟨p, p1, rfl⟩ := h; exact hF.low i p hi p1
    rw [if_neg (by omega), zU i j hi (by omega)]
    have := he.l i j hi h
    rw [hsum] at this
    have hj0 := hd j hj
    have h2 : F.L.entry i j * (F.D.get j)⁻¹ = A i j - ∑ m ∈ range n, F.L.entry i m * F.U.entry m j := by
      rw [this, mul_assoc, mul_inv_cancel₀ hj0, mul_one]
    rw [h2]; ring
  · subst h
    rw [if_pos rfl, zU i i hi (le_refl _), zL i i hi (le_refl _)]
    have := he.d i hi
    rw [hsum, one_div] at this
    rw [this, inv_inv]; ring
  · have hlt : i < j := by obtain ⟨p, p1, rfl⟩ := h; exact (hF.up i p hi p1).1
    rw [if_neg (by omega), zL i j hi (by omega), he.u i j hi h, hsum]; ring

/-- **C28 (factorization, recurrence form).** As `createIlukCsr_spec`, with the recurrences defining the factors (no
assumption on the pivots; `1/0 = 0`). -/
theorem createIlukCsr_full {A : Csr R} (hA : A.WF) (hnp : A.np = A.n) (hnd : A.NoDup) (levfill : ℕ) (junk : ℕ → ℕ)
    (junkIw : ℕ → Option ℕ) (junkV : ℕ → ℕ → R) {junkD : Arr R} (hD : A.n ≤ junkD.size) (junkJw : ℕ → Option ℕ) :
    Ok (createIlukCsr A levfill junk junkIw junkV junkD junkJw) fun F => F.WF A.n ∧
      (∀ i j, i < A.n → (F.L.Has i j ↔ j < i ∧ IluPattern A.Pos levfill i j)) ∧
      (∀ i j, i < A.n → (F.U.Has i j ↔ i < j ∧ IluPattern A.Pos levfill i j)) ∧
      LuShape A.n (IluPattern A.Pos levfill) F.L.entry F.U.entry ∧
      FactEq A.entry A.n F := by
  unfold createIlukCsr
  rw [Ok_bind]
  refine (symbolic_rows hA hnp hnd levfill junk junkIw).mono ?_
  rintro P ⟨p1, p2, p3⟩
  refine (numerical_eq hA hnd (fun k hk => (p3 k hk).shape) p1 p2 ?_ junkV junkD hD junkJw).mono ?_
  · intro i c hi hs
    have hcn : c < A.n := by
      obtain ⟨t, t1, t2, rfl⟩ := hs
      rw [← hnp]; exact hA.idx t (hA.ptr.lt_nnz hi t2)
    refine ⟨hcn, ?_⟩
    have hf : FillLevel (fun a b => a < A.n ∧ A.Stored a b) i c 0 := .stored ⟨hi, hs⟩
    rcases Nat.lt_trichotomy c i with a | a | a
    · obtain ⟨p, q1, q2⟩ := (p3 i hi).compL c 0 a (Nat.zero_le _) hf
      exact .inl ⟨p, q1, q2⟩
    · exact .inr (.inl a)
    · obtain ⟨p, q1, q2, -⟩ := (p3 i hi).compU c 0 a (Nat.zero_le _) hf
      exact .inr (.inr ⟨p, q1, q2⟩)
  · rintro F ⟨f1, f2, f3, f4, f5, f6, f7, f8⟩
    have wf : F.WF A.n := by
      refine ⟨by rw [f1]; exact p1, by rw [f3]; exact p2, fun i hi => ?_, fun i hi => ?_, fun i hi => ?_, fun i hi => ?_, f7,
        fun i p hi hp => ?_, fun i p hi hp => ?_⟩
      · rw [f1, f2]; exact (p3 i hi).szL
      · rw [f3, f4]; exact (p3 i hi).szU
      · rw [f1]; exact f5 i hi
      · rw [f3]; exact f6 i hi
      · rw [f1] at hp; rw [f2]; exact (p3 i hi).low p hp
      · rw [f3] at hp; rw [f4]; exact (p3 i hi).up p hp
    have hL : ∀ i j, i < A.n → (F.L.Has i j ↔ j < i ∧ IluPattern A.Pos levfill i j) := by
      intro i j hi
      unfold IluMat.Has
      rw [f1, f2]
      constructor
      · rintro ⟨p, q1, rfl⟩
        exact ⟨(p3 i hi).low p q1, (p3 i hi).soundL p q1⟩
      · rintro ⟨h1, l, h2, h3⟩
        exact (p3 i hi).compL j l h1 h2 h3
    have hU : ∀ i j, i < A.n → (F.U.Has i j ↔ i < j ∧ IluPattern A.Pos levfill i j) := by
      intro i j hi
      unfold IluMat.Has
      rw [f3, f4]
      constructor
      · rintro ⟨p, q1, rfl⟩
        have := (p3 i hi).soundU p q1
        exact ⟨((p3 i hi).up p q1).1, _, this.2, this.1⟩
      · rintro ⟨h1, l, h2, h3⟩
        obtain ⟨p, q1, q2, -⟩ := (p3 i hi).compU j l h1 h2 h3
        exact ⟨p, q1, q2⟩
    refine ⟨wf, hL, hU, ⟨fun i j hi h => ?_, fun i j hi h => ?_⟩, f8⟩
    · by_contra hh
      exact h (IluMat.entry_absent fun hm => hh ((hL i j hi).1 hm))
    · have hm : F.U.Has i j := by
        by_contra hh
        exact h (IluMat.entry_absent hh)
      have := (hU i j hi).1 hm
      refine ⟨this.1, ?_, this.2⟩
      obtain ⟨p, q1, rfl⟩ := hm
      exact (wf.up i p hi q1).2

/-- **C28 (factorization).** Creating the ILU(p) preconditioner of a square CSR matrix without duplicate entries never
leaves its buffers; the factors have exactly the level-of-fill pattern; and when no pivot vanishes, `(I+L)(D̂+U)` equals
`A` at every position of that pattern and on the diagonal. -/
theorem createIlukCsr_spec {A : Csr R} (hA : A.WF) (hnp : A.np = A.n) (hnd : A.NoDup) (levfill : ℕ) (junk : ℕ → ℕ)
    (junkIw : ℕ → Option ℕ) (junkV : ℕ → ℕ → R) {junkD : Arr R} (hD : A.n ≤ junkD.size) (junkJw : ℕ → Option ℕ) :
    Ok (createIlukCsr A levfill junk junkIw junkV junkD junkJw) fun F => F.WF A.n ∧
      (∀ i j, i < A.n → (F.L.Has i j ↔ j < i ∧ IluPattern A.Pos levfill i j)) ∧
      (∀ i j, i < A.n → (F.U.Has i j ↔ i < j ∧ IluPattern A.Pos levfill i j)) ∧
      LuShape A.n (IluPattern A.Pos levfill) F.L.entry F.U.entry ∧
      ((∀ i, i < A.n → F.D.get i ≠ 0) →
        IsIlu A.n (IluPattern A.Pos levfill) A.entry F.L.entry (fun i => (F.D.get i)⁻¹) F.U.entry) := by
  refine (createIlukCsr_full hA hnp hnd levfill junk junkIw junkV hD junkJw).mono ?_
  rintro F ⟨wf, hL, hU, sh, f8⟩
  refine ⟨wf, hL, hU, sh, fun hd i j hi hj hp => ?_⟩
  refine isIlu_of_eq wf f8 hd hi hj ?_
  by_cases e : i = j
  · exact .inr (.inl e)
  · rcases hp with hp | hp
    · rcases Nat.lt_or_gt_of_ne e with a | a
      · exact .inr (.inr ((hU i j hi).2 ⟨a, hp⟩))
      · exact .inl ((hL i j hi).2 ⟨a, hp⟩)
    · exact absurd hp e

/-- **C28 (ILU(0)).** Without fill (`-ilu_fill 0`, the default) the pattern of the factors is the pattern of `A`, and the
product of the factors equals `A` on it. -/
theorem ilu0_spec {A : Csr R} (hA : A.WF) (hnp : A.np = A.n) (hnd : A.NoDup) (junk : ℕ → ℕ)
    (junkIw : ℕ → Option ℕ) (junkV : ℕ → ℕ → R) {junkD : Arr R} (hD : A.n ≤ junkD.size) (junkJw : ℕ → Option ℕ) :
    Ok (createIlukCsr A 0 junk junkIw junkV junkD junkJw) fun F => F.WF A.n ∧
      (∀ i j, i < A.n → (F.L.Has i j ↔ j < i ∧ A.Stored i j)) ∧
      (∀ i j, i < A.n → (F.U.Has i j ↔ i < j ∧ A.Stored i j)) ∧
      ((∀ i, i < A.n → F.D.get i ≠ 0) →
        IsIlu A.n A.Stored A.entry F.L.entry (fun i => (F.D.get i)⁻¹) F.U.entry) := by
  have hpat : ∀ i j, i < A.n → (IluPattern A.Pos 0 i j ↔ A.Stored i j) := by
    intro i j hi
    constructor
    · rintro ⟨l, hl, hf⟩
      cases hf with
      | stored h => exact h.2
      | fill => omega
    · intro h
      exact ⟨0, le_refl _, .stored ⟨hi, h⟩⟩
  refine (createIlukCsr_spec hA hnp hnd 0 junk junkIw junkV hD junkJw).mono ?_
  rintro F ⟨h1, h2, h3, -, h5⟩
  refine ⟨h1, fun i j hi => by rw [h2 i j hi, hpat i j hi], fun i j hi => by rw [h3 i j hi, hpat i j hi],
    fun hd i j hi hj hp => h5 hd i j hi hj (by rw [hpat i j hi]; exact hp)⟩

/-- **C28 (enough fill = direct solver).** If the allowed level of fill covers all fill, creating and applying the
preconditioner solves `A z = r`. -/
theorem iluk_direct {A : Csr R} (hA : A.WF) (hnp : A.np = A.n) (hnd : A.NoDup) {levfill : ℕ}
    (hfull : ∀ i j l, FillLevel A.Pos i j l → IluPattern A.Pos levfill i j) (junk : ℕ → ℕ)
    (junkIw : ℕ → Option ℕ) (junkV : ℕ → ℕ → R) {junkD : Arr R} (hD : A.n ≤ junkD.size) (junkJw : ℕ → Option ℕ) :
    Ok (createIlukCsr A levfill junk junkIw junkV junkD junkJw) fun F =>
      (∀ i, i < A.n → F.D.get i ≠ 0) → ∀ b x (h : Vecs R), h.Good A.n →
        Ok (psolveIluk A.n F b x h) fun h' => OnlyChanged h x A.n h' ∧ SolvesEq A.n A.entry (h'.el x) (h.el b) := by
  refine (createIlukCsr_spec hA hnp hnd levfill junk junkIw junkV hD junkJw).mono ?_
  rintro F ⟨h1, h2, h3, h4, h5⟩ hd b x h hg
  refine (psolveIluk_spec h1 hd b x hg).mono ?_
  rintro h' ⟨o, hs⟩
  refine ⟨o, fun i hi => ?_⟩
  rw [← hs i hi]
  refine sum_congr rfl fun j hj => ?_
  congr 1
  rw [mem_range] at hj
  by_cases hp : IluPattern A.Pos levfill i j ∨ i = j
  · exact (h5 hd i j hi hj hp).symm
  · have hA0 : A.entry i j = 0 := by
      refine Csr.entry_absent fun k k1 k2 e => ?_
      exact hp (.inl ⟨0, Nat.zero_le _, .stored ⟨hi, k, k1, k2, e⟩⟩)
    rw [hA0]
    symm
    unfold luEntry
    refine sum_eq_zero fun k hk => ?_
    rw [mem_range] at hk
    by_cases e1 : i = k
    · subst e1
      have hU0 : F.U.entry i j = 0 := by
        by_contra hne
        exact hp (.inl (h4.up i j hi hne).2.2)
      rw [hU0, if_neg (fun e => hp (.inr e))]
      ring
    · rw [if_neg e1, zero_add]
      by_cases hl : F.L.entry i k = 0
      · rw [hl, zero_mul]
      · obtain ⟨l1, a, l2, l3⟩ := h4.low i k hi hl
        by_cases e2 : k = j
        · subst e2; exact absurd (.inl ⟨a, l2, l3⟩) hp
        · rw [if_neg e2, zero_add]
          have hU0 : F.U.entry k j = 0 := by
            by_contra hne
            obtain ⟨u1, _, b', u2, u3⟩ := h4.up k j hk hne
            exact hp (.inl (hfull i j _ (.fill l1 u1 l3 u3)))
          rw [hU0, mul_zero]

end create
end Lis
