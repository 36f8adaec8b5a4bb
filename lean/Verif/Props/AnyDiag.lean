import Verif.Lemmas.AnyDiag3
import Verif.Lemmas.AnyDiag4
import Verif.Props.CsrScale

/-!
# C11, C12: the diagonal of a matrix, in every storage format
-/

namespace Lis
open Finset
variable {R α : Type}

theorem PairsInj.sub {P P' : ℕ → ℕ → Prop} {q : ℕ → ℕ → ℕ} (h : PairsInj P q) (hs : ∀ i p, P' i p → P i p) :
    PairsInj P' q := fun i p i' p' h1 h2 h3 => h i p i' p' (hs _ _ h1) (hs _ _ h2) h3

theorem PairStep.sub {P P' : ℕ → ℕ → Prop} {q : ℕ → ℕ → ℕ} {g : ℕ → ℕ → α → α} {sz : ℕ}
    {f : ℕ → ℕ → Arr α → Option (Arr α)} (h : PairStep P q g sz f) (hs : ∀ i p, P' i p → P i p) :
    PairStep P' q g sz f := fun i p z h1 h2 => h i p z (hs _ _ h1) h2

/-! ### the block formats -/

theorem Bsr.diagAt_iff {A : Bsr R} (h : A.WF) (hb : A.bnr = A.bnc) (i p : ℕ) :
    (∃ bi, 0 ≤ bi ∧ bi < A.nr ∧ BlkDiag A.n A.bnr bi (A.bptr.get bi) (A.bptr.get (bi + 1)) A.bindex.get
      (fun bj => bj * (A.bnr * A.bnc)) i p) ↔ A.DiagAt i p := by
  have hbr := h.hbr
  constructor
  · rintro ⟨bi, -, hbi, bj, t, b1, b2, b3, t1, t2, rfl, rfl⟩
    have e1 : (bi * A.bnr + t) / A.bnr = bi := by
      rw [Nat.mul_comm, Nat.mul_add_div hbr, Nat.div_eq_of_lt t1, Nat.add_zero]
    have e2 : (bi * A.bnr + t) % A.bnr = t := by
      rw [Nat.mul_comm, Nat.mul_add_mod, Nat.mod_eq_of_lt t1]
    refine ⟨t2, bj, ?_, ?_, ?_, ?_⟩
    · rw [e1]; exact b1
    · rw [e1]; exact b2
    · rw [← hb, e1]; exact b3
    · rw [← hb, e2]
  · rintro ⟨h1, b, b1, b2, b3, rfl⟩
    refine ⟨i / A.bnr, Nat.zero_le _, div_lt_of_cover hbr h.hn h1, b, i % A.bnr, b1, b2, by rw [b3, hb],
      Nat.mod_lt _ hbr, ?_, ?_, ?_⟩
    · rw [Nat.div_add_mod']; exact h1
    · rw [Nat.div_add_mod']
    · rw [← hb]

theorem BlkDiag.row {n b bi lo hi : ℕ} {c base : ℕ → ℕ} {i p : ℕ} (hb : 0 < b) (h : BlkDiag n b bi lo hi c base i p) :
    bi = i / b := by
  obtain ⟨bj, t, -, -, -, t1, -, rfl, -⟩ := h
  rw [Nat.mul_comm, Nat.mul_add_div hb, Nat.div_eq_of_lt t1, Nat.add_zero]

theorem Ok_bsrDiagScan_square {A : Bsr R} (h : A.WF) (hb : A.bnr = A.bnc)
    (hd : ∀ b, b < A.nr → ∀ k l, A.bptr.get b ≤ k → k < A.bptr.get (b + 1) → A.bptr.get b ≤ l →
      l < A.bptr.get (b + 1) → A.bindex.get k = A.bindex.get l → k = l)
    {z : Arr α} {q : ℕ → ℕ → ℕ} {g : ℕ → ℕ → α → α} {f : ℕ → ℕ → Arr α → Option (Arr α)}
    (hinj : PairsInj A.DiagAt q) (hf : PairStep A.DiagAt q g z.size f) :
    Ok (bsrDiagScan A z f) (Upd z (Pairs A.DiagAt q g)) := by
  have hps := h.bptr.size
  have his := h.isz
  unfold bsrDiagScan
  refine (Ok_loop_pairs (g := g) (P := fun bi => BlkDiag A.n A.bnr bi (A.bptr.get bi) (A.bptr.get (bi + 1)) A.bindex.get
      (fun bj => bj * (A.bnr * A.bnc))) (hinj.sub fun i p hp => (Bsr.diagAt_iff h hb i p).1 hp) ?_ ?_).mono ?_
  · intro x x' i p _ _ _ _ h1 h2
    rw [h1.row h.hbr, h2.row h.hbr]
  · intro bi y _ hbi hy
    have hm := h.bptr.mono bi hbi
    have hsub : ∀ i p, BlkDiag A.n A.bnr bi (A.bptr.get bi) (A.bptr.get (bi + 1)) A.bindex.get
      (fun bj => bj * (A.bnr * A.bnc)) i p → A.DiagAt i p := fun i p hp =>
        (Bsr.diagAt_iff h hb i p).1 ⟨bi, Nat.zero_le _, hbi, hp⟩
    simp only [Ok_bind, Ok_rd]
    refine ⟨by omega, by omega, ?_⟩
    refine Ok_blockDiagScan h.hbr ?_ (hd bi hbi) (hinj.sub hsub) (hy ▸ hf.sub hsub)
    intro bj b1 b2
    have := h.bptr.lt_nnz hbi b2
    simp only [Ok_bind, Ok_rd, Ok_pure]
    exact ⟨by omega, by rw [hb]⟩
  · exact fun z hz => hz.pcongr fun i p => (Bsr.diagAt_iff h hb i p).symm

theorem Bsr.diagAt_iff_rect {A : Bsr R} (h : A.WF) (i p : ℕ) :
    (∃ bi, 0 ≤ bi ∧ bi < A.nr ∧ RectDiag A.n A.bnr A.bnc bi (A.bptr.get bi) (A.bptr.get (bi + 1)) A.bindex.get
      (fun bj => bj * (A.bnr * A.bnc)) i p) ↔ A.DiagAt i p := by
  have hbr := h.hbr
  constructor
  · rintro ⟨bi, -, hbi, i1, i2, i3, bj, b1, b2, b3, rfl⟩
    have e1 : i / A.bnr = bi := by
      apply Nat.le_antisymm
      · exact Nat.lt_succ_iff.1 ((Nat.div_lt_iff_lt_mul hbr).2 (by rw [Nat.succ_mul]; exact i2))
      · exact (Nat.le_div_iff_mul_le hbr).2 i1
    have e2 := Nat.div_add_mod' i A.bnr
    rw [e1] at e2
    refine ⟨i3, bj, by rw [e1]; exact b1, by rw [e1]; exact b2, b3, ?_⟩
    simp only
    omega
  · rintro ⟨h1, b, b1, b2, b3, rfl⟩
    have e2 := Nat.div_add_mod' i A.bnr
    have e3 := Nat.mod_lt i hbr
    refine ⟨i / A.bnr, Nat.zero_le _, div_lt_of_cover hbr h.hn h1, by omega, by omega, h1, b, b1, b2, b3, ?_⟩
    simp only
    omega

theorem Ok_bsrDiagScan {A : Bsr R} (h : A.WF)
    (hb : A.bnr = A.bnc ∨ ((∀ r, r < A.nr → ∀ k l, A.bptr.get r ≤ k → k < l → l < A.bptr.get (r + 1) →
      A.bindex.get k < A.bindex.get l) ∧ ∀ i, i < A.n → ∃ b, A.bptr.get (i / A.bnr) ≤ b ∧
        b < A.bptr.get (i / A.bnr + 1) ∧ A.bindex.get b = i / A.bnc))
    (hd : ∀ b, b < A.nr → ∀ k l, A.bptr.get b ≤ k → k < A.bptr.get (b + 1) → A.bptr.get b ≤ l →
      l < A.bptr.get (b + 1) → A.bindex.get k = A.bindex.get l → k = l)
    {z : Arr α} {q : ℕ → ℕ → ℕ} {g : ℕ → ℕ → α → α} {f : ℕ → ℕ → Arr α → Option (Arr α)}
    (hinj : PairsInj A.DiagAt q) (hf : PairStep A.DiagAt q g z.size f) :
    Ok (bsrDiagScan A z f) (Upd z (Pairs A.DiagAt q g)) := by
  rcases hb with hb | ⟨hsort, hall⟩
  · exact Ok_bsrDiagScan_square h hb hd hinj hf
  have hps := h.bptr.size
  have his := h.isz
  unfold bsrDiagScan
  refine (Ok_loop_pairs (g := g) (P := fun bi => RectDiag A.n A.bnr A.bnc bi (A.bptr.get bi) (A.bptr.get (bi + 1))
      A.bindex.get (fun bj => bj * (A.bnr * A.bnc))) (hinj.sub fun i p hp => (Bsr.diagAt_iff_rect h i p).1 hp) ?_ ?_).mono ?_
  · rintro x x' i p _ _ _ _ ⟨a1, a2, -⟩ ⟨b1, b2, -⟩
    have h1 := Nat.lt_of_mul_lt_mul_right (a := A.bnr) (b := x) (c := x' + 1) (by rw [Nat.add_mul]; omega)
    have h2 := Nat.lt_of_mul_lt_mul_right (a := A.bnr) (b := x') (c := x + 1) (by rw [Nat.add_mul]; omega)
    omega
  · intro bi y _ hbi hy
    have hm := h.bptr.mono bi hbi
    have hsub : ∀ i p, RectDiag A.n A.bnr A.bnc bi (A.bptr.get bi) (A.bptr.get (bi + 1)) A.bindex.get
      (fun bj => bj * (A.bnr * A.bnc)) i p → A.DiagAt i p := fun i p hp =>
        (Bsr.diagAt_iff_rect h i p).1 ⟨bi, Nat.zero_le _, hbi, hp⟩
    simp only [Ok_bind, Ok_rd]
    refine ⟨by omega, by omega, ?_⟩
    refine Ok_blockDiagScan_rect h.hbr h.hbc ?_ (hsort bi hbi) ?_ (hinj.sub hsub) (hy ▸ hf.sub hsub)
    · intro bj b1 b2
      have := h.bptr.lt_nnz hbi b2
      simp only [Ok_bind, Ok_rd, Ok_pure]
      exact ⟨by omega, trivial⟩
    · intro i i1 i2 i3
      have e1 : i / A.bnr = bi := by
        apply Nat.le_antisymm
        · exact Nat.lt_succ_iff.1 ((Nat.div_lt_iff_lt_mul h.hbr).2 (by rw [Nat.succ_mul]; exact i2))
        · exact (Nat.le_div_iff_mul_le h.hbr).2 i1
      have := hall i i3
      rwa [e1] at this
  · exact fun z hz => hz.pcongr fun i p => (Bsr.diagAt_iff_rect h i p).symm

theorem Bsc.diagAt_iff {A : Bsc R} (h : A.WF) (hc : A.n ≤ A.nc * A.bnc) (hb : A.bnr = A.bnc) (hn : A.nr = A.nc) (i p : ℕ) :
    (∃ bi, 0 ≤ bi ∧ bi < A.nr ∧ BlkDiag A.n A.bnr bi (A.bptr.get bi) (A.bptr.get (bi + 1)) A.bindex.get
      (fun bj => bj * (A.bnr * A.bnc)) i p) ↔ A.DiagAt i p := by
  have hbr := h.hbr
  constructor
  · rintro ⟨bi, -, hbi, bj, t, b1, b2, b3, t1, t2, rfl, rfl⟩
    have e1 : (bi * A.bnr + t) / A.bnr = bi := by
      rw [Nat.mul_comm, Nat.mul_add_div hbr, Nat.div_eq_of_lt t1, Nat.add_zero]
    have e2 : (bi * A.bnr + t) % A.bnr = t := by
      rw [Nat.mul_comm, Nat.mul_add_mod, Nat.mod_eq_of_lt t1]
    refine ⟨t2, bj, ?_, ?_, ?_, ?_⟩
    · rw [← hb, e1]; exact b1
    · rw [← hb, e1]; exact b2
    · rw [e1]; exact b3
    · rw [← hb, e2]
  · rintro ⟨h1, b, b1, b2, b3, rfl⟩
    rw [← hb] at b1 b2
    refine ⟨i / A.bnr, Nat.zero_le _, div_lt_of_cover hbr h.hn h1, b, i % A.bnr, b1, b2, by rw [b3],
      Nat.mod_lt _ hbr, ?_, ?_, ?_⟩
    · rw [Nat.div_add_mod']; exact h1
    · rw [Nat.div_add_mod']
    · rw [← hb]

theorem Ok_bscDiagScan {A : Bsc R} (h : A.WF) (hc : A.n ≤ A.nc * A.bnc) (hb : A.bnr = A.bnc) (hn : A.nr = A.nc)
    (hd : ∀ b, b < A.nc → ∀ k l, A.bptr.get b ≤ k → k < A.bptr.get (b + 1) → A.bptr.get b ≤ l →
      l < A.bptr.get (b + 1) → A.bindex.get k = A.bindex.get l → k = l)
    {z : Arr α} {q : ℕ → ℕ → ℕ} {g : ℕ → ℕ → α → α} {f : ℕ → ℕ → Arr α → Option (Arr α)}
    (hinj : PairsInj A.DiagAt q) (hf : PairStep A.DiagAt q g z.size f) :
    Ok (bscDiagScan A z f) (Upd z (Pairs A.DiagAt q g)) := by
  have hps := h.bptr.size
  have his := h.isz
  unfold bscDiagScan
  refine (Ok_loop_pairs (g := g) (P := fun bi => BlkDiag A.n A.bnr bi (A.bptr.get bi) (A.bptr.get (bi + 1)) A.bindex.get
      (fun bj => bj * (A.bnr * A.bnc))) (hinj.sub fun i p hp => (Bsc.diagAt_iff h hc hb hn i p).1 hp) ?_ ?_).mono ?_
  · intro x x' i p _ _ _ _ h1 h2
    rw [h1.row h.hbr, h2.row h.hbr]
  · intro bi y _ hbi hy
    have hm := h.bptr.mono bi (by omega)
    have hsub : ∀ i p, BlkDiag A.n A.bnr bi (A.bptr.get bi) (A.bptr.get (bi + 1)) A.bindex.get
      (fun bj => bj * (A.bnr * A.bnc)) i p → A.DiagAt i p := fun i p hp =>
        (Bsc.diagAt_iff h hc hb hn i p).1 ⟨bi, Nat.zero_le _, hbi, hp⟩
    simp only [Ok_bind, Ok_rd]
    refine ⟨by omega, by omega, ?_⟩
    refine Ok_blockDiagScan h.hbr ?_ (hd bi (by omega)) (hinj.sub hsub) (hy ▸ hf.sub hsub)
    intro bj b1 b2
    have := h.bptr.lt_nnz (i := bi) (by omega) b2
    simp only [Ok_bind, Ok_rd, Ok_pure]
    exact ⟨by omega, by rw [hb]⟩
  · exact fun z hz => hz.pcongr fun i p => (Bsc.diagAt_iff h hc hb hn i p).symm

theorem Vbr.diagAt_iff {A : Vbr R} (h : A.WF) (hn : A.nr = A.nc) {s : ℕ} (hs : 0 < s)
    (hu : ∀ b, b ≤ A.nr → A.row.get b = b * s ∧ A.col.get b = b * s) (i p : ℕ) :
    (∃ bi, 0 ≤ bi ∧ bi < A.nr ∧ BlkDiag A.n s bi (A.bptr.get bi) (A.bptr.get (bi + 1)) A.bindex.get
      A.ptr.get i p) ↔ A.DiagAt i p := by
  have hlast := h.row.last
  rw [(hu A.nr le_rfl).1] at hlast
  constructor
  · rintro ⟨bi, -, hbi, bj, t, b1, b2, b3, t1, t2, rfl, rfl⟩
    have h1 := hu bi (by omega)
    have h2 := hu (bi + 1) (by omega)
    rw [Nat.add_mul] at h2
    refine ⟨bi, bj, ⟨hbi, b1, b2, by omega, by omega, by rw [b3]; omega, by rw [b3]; omega⟩, ?_⟩
    unfold Vbr.pos
    rw [b3, h1.1, h1.2, h2.1, show bi * s + t - bi * s = t by omega, show bi * s + 1 * s - bi * s = s by omega]
  · rintro ⟨r, b, h1, rfl⟩
    have hr := h1.hr
    have hbi := h.idx b (h.bptr.lt_nnz hr h1.b2)
    have e1 := hu r (by omega)
    have e2 := hu (r + 1) (by omega)
    have e3 := hu (A.bindex.get b) (by omega)
    have e4 := hu (A.bindex.get b + 1) (by omega)
    have i1 := h1.i1; have i2 := h1.i2; have j1 := h1.j1; have j2 := h1.j2
    rw [e1.1] at i1; rw [e2.1] at i2; rw [e3.2] at j1; rw [e4.2] at j2
    have hbr : A.bindex.get b = r := by
      have h3 := Nat.lt_of_mul_lt_mul_right (a := s) (b := A.bindex.get b) (c := r + 1) (by omega)
      have h4 := Nat.lt_of_mul_lt_mul_right (a := s) (b := r) (c := A.bindex.get b + 1) (by omega)
      omega
    rw [Nat.add_mul] at i2
    refine ⟨r, Nat.zero_le _, hr, b, i - r * s, h1.b1, h1.b2, hbr, by omega, ?_, by omega, ?_⟩
    · rw [show r * s + (i - r * s) = i by omega]
      exact h.row.lt_nnz hr h1.i2
    · unfold Vbr.pos
      rw [hbr, e1.1, e1.2, e2.1, Nat.add_mul, show r * s + 1 * s - r * s = s by omega]

theorem Ok_vbrDiagScan {A : Vbr R} (h : A.WF) (hn : A.nr = A.nc) {s : ℕ} (hs : 0 < s)
    (hu : ∀ b, b ≤ A.nr → A.row.get b = b * s ∧ A.col.get b = b * s)
    (hd : ∀ b, b < A.nr → ∀ k l, A.bptr.get b ≤ k → k < A.bptr.get (b + 1) → A.bptr.get b ≤ l →
      l < A.bptr.get (b + 1) → A.bindex.get k = A.bindex.get l → k = l)
    {z : Arr α} {q : ℕ → ℕ → ℕ} {g : ℕ → ℕ → α → α} {f : ℕ → ℕ → Arr α → Option (Arr α)}
    (hinj : PairsInj A.DiagAt q) (hf : PairStep A.DiagAt q g z.size f) :
    Ok (vbrDiagScan A z f) (Upd z (Pairs A.DiagAt q g)) := by
  have hps := h.bptr.size
  have hrs := h.row.size
  have hcs := h.col.size
  have his := h.isz
  have hpz := h.psz
  unfold vbrDiagScan
  refine (Ok_loop_pairs (g := g) (P := fun bi => BlkDiag A.n s bi (A.bptr.get bi) (A.bptr.get (bi + 1)) A.bindex.get
      A.ptr.get) (hinj.sub fun i p hp => (Vbr.diagAt_iff h hn hs hu i p).1 hp) ?_ ?_).mono ?_
  · intro x x' i p _ _ _ _ h1 h2
    rw [h1.row hs, h2.row hs]
  · intro bi y _ hbi hy
    have hm := h.bptr.mono bi hbi
    have hsub : ∀ i p, BlkDiag A.n s bi (A.bptr.get bi) (A.bptr.get (bi + 1)) A.bindex.get
      A.ptr.get i p → A.DiagAt i p := fun i p hp =>
        (Vbr.diagAt_iff h hn hs hu i p).1 ⟨bi, Nat.zero_le _, hbi, hp⟩
    have e1 := (hu bi (by omega)).1
    have e2 : A.row.get (bi + 1) - bi * s = s := by rw [(hu (bi + 1) (by omega)).1, Nat.add_mul]; omega
    simp only [Ok_bind, Ok_rd]
    refine ⟨by omega, by omega, by omega, by omega, ?_⟩
    rw [e1, e2]
    refine Ok_blockDiagScan hs ?_ (hd bi hbi) (hinj.sub hsub) (hy ▸ hf.sub hsub)
    intro bj b1 b2
    have h2 := h.bptr.lt_nnz hbi b2
    have h3 := h.idx bj h2
    simp only [Ok_bind, Ok_rd, Ok_pure]
    refine ⟨by omega, by omega, by omega, by omega, ?_⟩
    rw [(hu (A.bindex.get bj) (by omega)).2, (hu (A.bindex.get bj + 1) (by omega)).2, Nat.add_mul,
      show A.bindex.get bj * s + 1 * s - A.bindex.get bj * s = s by omega]
  · exact fun z hz => hz.pcongr fun i p => (Vbr.diagAt_iff h hn hs hu i p).symm

/-! ### DIA -/

theorem Ok_findDiag0 {A : Dia R} (h : A.WF) (hr : ∃ e, e < A.nnd ∧ A.index.get e = 0) :
    Ok (findDiag0 A) fun e => e < A.nnd ∧ A.index.get e = 0 := by
  have his := h.isz
  unfold findDiag0
  refine Ok_loopB (fun j s => s = j ∧ ∀ k, k < j → A.index.get k ≠ 0) ⟨rfl, fun k hk => by omega⟩ ?_ ?_
  · rintro j s - hj ⟨hsj, hs⟩
    simp only [Ok_bind, Ok_rd, Ok_ite, Ok_pure]
    refine ⟨by omega, fun h0 => ?_, fun h0 => ?_⟩
    · simp only [if_true]; exact ⟨hj, h0⟩
    · simp only [Bool.false_eq_true, if_false]
      refine ⟨trivial, fun k hk => ?_⟩
      by_cases hkj : k = j
      · subst hkj; exact h0
      · exact hs k (by omega)
  · rintro s ⟨-, hs⟩
    obtain ⟨e, e1, e2⟩ := hr
    exact absurd e2 (hs e (by omega))

/-! ### the API -/

theorem Csr.NoDup.diagOnce {A : Csr R} (h : A.NoDup) {i : ℕ} (hi : i < A.n) (hs : A.StoresDiag i) : A.DiagOnce i := by
  obtain ⟨k, k1, k2, k3⟩ := hs
  exact ⟨k, ⟨k1, k2, k3⟩, fun l l1 l2 l3 => h i hi l k l1 l2 k1 k2 (l3.trans k3.symm)⟩

/-- the CSR matrix with the same arrays: the transpose -/
def Csc.flip (A : Csc R) : Csr R := ⟨A.np, A.n, A.nnz, A.ptr, A.index, A.value⟩

theorem Csc.flip_wf {A : Csc R} (h : A.WF) : A.flip.WF := ⟨h.ptr, h.isz, h.vsz, h.idx⟩

theorem Csc.flip_entry [AddCommMonoid R] (A : Csc R) (i j : ℕ) : A.flip.entry i j = A.entry j i := rfl

/-- **C11 (all formats).** `lis_matrix_get_diagonal`: `d_i = A(i,i)` for every row whose diagonal element has a place in
the storage; where it has none the element is 0, which CSR, CSC, MSR, DIA, ELL, DNS write, while COO, JAD, BSR, BSC and
VBR leave `d_i` as it was.  Nothing past `n` is written. -/
theorem AnyMat.getDiagonal_spec [AddCommMonoid R] {A : AnyMat R} (h : A.WF) (hd : A.Distinct) (hr : A.DiagReachable)
    (d : Arr R) (hs : A.n ≤ d.size) :
    Ok (A.getDiagonal d) fun d' => d'.size = d.size ∧
      (∀ i, i < A.n → A.StoresDiag i → d'.get i = A.entry i i) ∧
      (∀ i, i < A.n → ¬ A.StoresDiag i → A.entry i i = 0 ∧ (A.WritesAll → d'.get i = 0) ∧
        (¬ A.WritesAll → d'.get i = d.get i)) ∧ SameFrom A.n d.get d'.get := by
  cases A with
  | csr A =>
    obtain ⟨h, hnp⟩ := h
    refine (getDiagonalCsr_spec h (fun i hi hst => Csr.NoDup.diagOnce hd hi hst) d hs).mono ?_
    rintro d' ⟨h1, h2, h3⟩
    refine ⟨h1, fun i hi _ => h2 i hi, fun i hi hn => ?_, h3⟩
    have h0 : A.entry i i = 0 := Csr.entry_absent fun k k1 k2 k3 => hn ⟨k, k1, k2, k3⟩
    exact ⟨h0, fun _ => (h2 i hi).trans h0, fun hw => absurd trivial hw⟩
  | csc A =>
    obtain ⟨h, hnp⟩ := h
    have hn' : (AnyMat.csc A).n = A.flip.n := hnp.symm
    have hd' : A.flip.NoDup := hd
    have : getDiagonalCsc A d = getDiagonalCsr A.flip d := rfl
    show Ok (getDiagonalCsc A d) _
    rw [this]
    refine (getDiagonalCsr_spec (Csc.flip_wf h) (fun i hi hst => hd'.diagOnce hi hst) d (by rw [← hn']; exact hs)).mono ?_
    rintro d' ⟨h1, h2, h3⟩
    rw [hn']
    refine ⟨h1, fun i hi _ => h2 i hi, fun i hi hn => ?_, h3⟩
    have h0 : A.entry i i = 0 := Csr.entry_absent (A := A.flip) fun k k1 k2 k3 => hn ⟨k, k1, k2, k3⟩
    exact ⟨h0, fun _ => (h2 i hi).trans h0, fun hw => absurd trivial hw⟩
  | msr z A =>
    have hvs := h.1.vsz
    have hst := Msr.diagStore h.1 hd
    have hs' : A.n ≤ d.size := hs
    show Ok (getDiagonalMsr A d) _
    unfold getDiagonalMsr
    refine Ok_loop_fill (fun i => A.value.get i) ?_ ?_
    · intro i y _ hi hy _ _
      simp only [Ok_bind, Ok_rd, Ok_wr]
      exact ⟨by omega, by omega, trivial⟩
    · intro y h1 h2 h3
      refine ⟨h1, fun i hi _ => ?_, fun i hi hn => absurd trivial hn, fun i hi => h3 i ?_⟩
      · exact (h2 i (Nat.zero_le _) hi).trans (hst.stored A.value (AgreeOff.refl _ _) i i ⟨hi, rfl⟩).symm
      · have : A.n ≤ i := hi
        omega
  | dia A =>
    have hvs := Dia.WF.vsz h
    have hst := Dia.diagStore h hd hr
    have hs' : A.n ≤ d.size := hs
    show Ok (getDiagonalDia A d) _
    unfold getDiagonalDia
    rw [Ok_bind]
    refine (Ok_findDiag0 h hr).mono ?_
    rintro e ⟨e1, e2⟩
    refine Ok_loop_fill (fun i => A.value.get (e * A.n + i)) ?_ ?_
    · intro i y _ hi hy _ _
      have := flat_lt e1 hi
      simp only [Ok_bind, Ok_rd, Ok_wr]
      exact ⟨by omega, by omega, trivial⟩
    · intro y h1 h2 h3
      refine ⟨h1, fun i hi _ => ?_, fun i hi hn => absurd hr hn, fun i hi => h3 i ?_⟩
      · exact (h2 i (Nat.zero_le _) hi).trans
          (hst.stored A.value (AgreeOff.refl _ _) i _ ⟨hi, e, e1, e2, rfl⟩).symm
      · have : A.n ≤ i := hi
        omega
  | ell A =>
    have hvs := Ell.WF.vsz h
    have his := Ell.WF.isz h
    have hst := Ell.diagStore h hr
    have hs' : A.n ≤ d.size := hs
    rw [Nat.mul_comm] at hvs his
    have key : Ok (getDiagonalEll A d) fun d' => d'.size = d.size ∧ (∀ i, i < A.n → d'.get i = A.entry i i) ∧
        SameFrom A.n d.get d'.get := by
      unfold getDiagonalEll
      refine Ok_loop_fill (fun i => A.entry i i) ?_ fun y h1 h2 h3 =>
        ⟨h1, fun i hi => h2 i (Nat.zero_le _) hi, fun i hi => h3 i (by omega)⟩
      intro i y _ hi hy _ _
      simp only [Ok_bind, Ok_wr]
      refine ⟨by omega, ?_⟩
      refine Ok_loopB (fun j d => d = y.set i 0 ∧ ∀ k, k < j → A.index.get (k * A.n + i) ≠ i)
        ⟨rfl, fun k k2 => by omega⟩ ?_ ?_
      · rintro j _ - hj ⟨rfl, hno⟩
        have hl := flat_lt hj hi
        simp only [Ok_bind, Ok_rd, Ok_ite]
        refine ⟨by omega, fun hc => ?_, fun hc => ?_⟩
        · simp only [Ok_wr, Ok_pure, if_true]
          refine ⟨by omega, by rw [Arr.set_size]; omega, ?_⟩
          rw [Arr.set_set, hst.stored A.value (AgreeOff.refl _ _) i _ ⟨hi, j, hj, hc.symm, hno, rfl⟩]
        · simp only [Ok_pure, Bool.false_eq_true, if_false]
          refine ⟨trivial, fun k hk => ?_⟩
          by_cases hkj : k = j
          · subst hkj; exact fun he => hc he.symm
          · exact hno k (by omega)
      · rintro _ ⟨rfl, hno⟩
        rw [hst.absent A.value (AgreeOff.refl _ _) i hi]
        rintro p ⟨-, k, k1, k2, -⟩
        exact hno k (by omega) k2
    refine key.mono ?_
    rintro d' ⟨h1, h2, h3⟩
    refine ⟨h1, fun i hi _ => h2 i hi, fun i hi hn => ?_, h3⟩
    have h0 : A.entry i i = 0 := hst.absent A.value (AgreeOff.refl _ _) i hi fun p hp => by
      obtain ⟨-, k, k1, k2, -⟩ := hp
      exact hn ⟨k, k1, k2⟩
    exact ⟨h0, fun _ => (h2 i hi).trans h0, fun hw => absurd trivial hw⟩
  | jad A =>
    have hst := Jad.diagStore h.1 hd
    refine (Ok_jadDiagScan h.1 hd hst.injGet (hst.stepGet hs)).mono ?_
    intro d' hu
    obtain ⟨h1, h2, h3, h4⟩ := hst.getPost hu
    have hiff : ∀ i, (AnyMat.jad A).StoresDiag i ↔ ∃ p, A.DiagAt i p := by
      intro i
      constructor
      · rintro ⟨e, k, e1, e2, e3, e4⟩
        exact ⟨A.ptr.get e + k, e, e1, by omega, by omega, by rwa [show A.ptr.get e + k - A.ptr.get e = k by omega], e4⟩
      · rintro ⟨p, e, e1, e2, e3, e4, e5⟩
        exact ⟨e, p - A.ptr.get e, e1, by omega, e4, by rwa [show A.ptr.get e + (p - A.ptr.get e) = p by omega]⟩
    exact ⟨h1, fun i hi hp => h2 i hi ((hiff i).1 hp), fun i hi hp =>
      ⟨(h3 i hi (fun hh => hp ((hiff i).2 hh))).1, fun hw => hw.elim, fun _ => (h3 i hi (fun hh => hp ((hiff i).2 hh))).2⟩, h4⟩
  | bsr A =>
    have hst := Bsr.diagStore h.1 hd
    refine (Ok_bsrDiagScan h.1 hr hd hst.injGet (hst.stepGet hs)).mono ?_
    intro d' hu
    obtain ⟨h1, h2, h3, h4⟩ := hst.getPost hu
    have hiff : ∀ i, i < A.n → ((AnyMat.bsr A).StoresDiag i ↔ ∃ p, A.DiagAt i p) := by
      intro i hi
      constructor
      · rintro ⟨b, b1, b2, b3⟩
        exact ⟨_, hi, b, b1, b2, b3, rfl⟩
      · rintro ⟨p, -, b, b1, b2, b3, -⟩
        exact ⟨b, b1, b2, b3⟩
    exact ⟨h1, fun i hi hp => h2 i hi ((hiff i hi).1 hp), fun i hi hp =>
      ⟨(h3 i hi (fun hh => hp ((hiff i hi).2 hh))).1, fun hw => hw.elim, fun _ => (h3 i hi (fun hh => hp ((hiff i hi).2 hh))).2⟩, h4⟩
  | bsc A =>
    have hst := Bsc.diagStore h.1 h.2.cover hd
    refine (Ok_bscDiagScan h.1 h.2.cover hr.1 hr.2 hd hst.injGet (hst.stepGet hs)).mono ?_
    intro d' hu
    obtain ⟨h1, h2, h3, h4⟩ := hst.getPost hu
    have hiff : ∀ i, i < A.n → ((AnyMat.bsc A).StoresDiag i ↔ ∃ p, A.DiagAt i p) := by
      intro i hi
      constructor
      · rintro ⟨b, b1, b2, b3⟩
        exact ⟨_, hi, b, b1, b2, b3, rfl⟩
      · rintro ⟨p, -, b, b1, b2, b3, -⟩
        exact ⟨b, b1, b2, b3⟩
    refine ⟨h1, fun i hi hp => ?_, fun i hi hp =>
      ⟨?_, fun hw => hw.elim, fun _ => (h3 i hi (fun hh => hp ((hiff i hi).2 hh))).2⟩, h4⟩
    · have := h2 i hi ((hiff i hi).1 hp)
      rw [this]
      exact if_pos hi
    · have := (h3 i hi (fun hh => hp ((hiff i hi).2 hh))).1
      rw [← this]
      exact (if_pos hi).symm
  | vbr A =>
    have hst := Vbr.diagLoc h hd
    obtain ⟨hn, s, hs0, hu⟩ := hr
    refine (Ok_vbrDiagScan h hn hs0 hu hd hst.injGet (hst.stepGet hs)).mono ?_
    intro d' hu
    obtain ⟨h1, h2, h3, h4⟩ := hst.getPost hu
    have hiff : ∀ i, (AnyMat.vbr A).StoresDiag i ↔ ∃ p, A.DiagAt i p := by
      intro i
      constructor
      · rintro ⟨r, b, e1, e2, e3, e4, e5, e6⟩
        exact ⟨_, r, b, ⟨e1, e3, e4, e2.1, e2.2, e5, e6⟩, rfl⟩
      · rintro ⟨p, r, b, e, -⟩
        exact ⟨r, b, e.hr, ⟨e.i1, e.i2⟩, e.b1, e.b2, e.j1, e.j2⟩
    exact ⟨h1, fun i hi hp => h2 i hi ((hiff i).1 hp), fun i hi hp =>
      ⟨(h3 i hi (fun hh => hp ((hiff i).2 hh))).1, fun hw => hw.elim, fun _ => (h3 i hi (fun hh => hp ((hiff i).2 hh))).2⟩, h4⟩
  | dns A =>
    have hvs := h.1.vsz
    have hnp := h.2
    have hs' : A.n ≤ d.size := hs
    rw [hnp] at hvs
    show Ok (getDiagonalDns A d) _
    unfold getDiagonalDns
    refine Ok_loop_fill (fun i => A.value.get (i * A.n + i)) ?_ ?_
    · intro i y _ hi hy _ _
      have := flat_lt hi hi
      simp only [Ok_bind, Ok_rd, Ok_wr]
      exact ⟨by omega, by omega, trivial⟩
    · intro y h1 h2 h3
      refine ⟨h1, fun i hi _ => h2 i (Nat.zero_le _) hi, fun i hi hn => absurd trivial hn, fun i hi => h3 i ?_⟩
      have : A.n ≤ i := hi
      omega
  | coo A =>
    have hst := Coo.diagStore h hd
    have hrs := Coo.WF.rsz h
    have hcs := Coo.WF.csz h
    have key : Ok (getDiagonalCoo A d) (Upd d (Pairs A.DiagAt (fun i _ => i) fun _ p _ => A.value.get p)) := by
      unfold getDiagonalCoo
      refine (Ok_loop_pairs (P := fun x i p => p = x ∧ A.DiagAt i p) (q := fun i _ => i)
        (g := fun _ p _ => A.value.get p) (hst.injGet.sub ?_) ?_ ?_).mono ?_
      · rintro i p ⟨x, -, -, -, hp⟩; exact hp
      · rintro x x' i p - - - - ⟨rfl, -⟩ ⟨h1, -⟩; exact h1
      · intro x y _ hx hy
        simp only [Ok_bind, Ok_rd, Ok_ite]
        refine ⟨by omega, by omega, fun hc => ?_, fun hc => ?_⟩
        · have hD : A.DiagAt (A.row.get x) x := ⟨hx, rfl, hc.symm⟩
          have := (hst.stepGet (sz := d.size) hs).upd hD hy
          simp only [Ok_bind, Ok_rd] at this
          refine ⟨this.1, this.2.mono fun y' hy' => hy'.congr fun k g => ?_⟩
          constructor
          · rintro ⟨i, p, ⟨rfl, hp⟩, rfl, rfl⟩; exact ⟨hp.2.1.symm, rfl⟩
          · rintro ⟨rfl, rfl⟩; exact ⟨_, x, ⟨rfl, hD⟩, rfl, rfl⟩
        · rw [Ok_pure]
          refine Upd.none _ _ _ ?_
          rintro i p ⟨rfl, hp⟩
          exact hc (hp.2.1.trans hp.2.2.symm)
      · intro d' hu
        exact hu.pcongr fun i p => ⟨fun hp => ⟨p, Nat.zero_le _, hp.1, rfl, hp⟩, fun ⟨x, _, _, _, hp⟩ => hp⟩
    refine key.mono ?_
    intro d' hu
    obtain ⟨h1, h2, h3, h4⟩ := hst.getPost hu
    exact ⟨h1, h2, fun i hi hp => ⟨(h3 i hi hp).1, fun hw => hw.elim, fun _ => (h3 i hi hp).2⟩, h4⟩

/-- if the vector was zero before (or every row stores its diagonal element, or the format writes every row) the result is
the diagonal -/
theorem AnyMat.getDiagonal_zeroed [AddCommMonoid R] {A : AnyMat R} (h : A.WF) (hd : A.Distinct) (hr : A.DiagReachable)
    (d : Arr R) (hs : A.n ≤ d.size) (hz : ∀ i, i < A.n → A.StoresDiag i ∨ A.WritesAll ∨ d.get i = 0) :
    Ok (A.getDiagonal d) fun d' => d'.size = d.size ∧ (∀ i, i < A.n → d'.get i = A.entry i i) ∧
      SameFrom A.n d.get d'.get := by
  refine (AnyMat.getDiagonal_spec h hd hr d hs).mono ?_
  rintro d' ⟨h1, h2, h3, h4⟩
  refine ⟨h1, fun i hi => ?_, h4⟩
  by_cases hst : A.StoresDiag i
  · exact h2 i hi hst
  · obtain ⟨e0, e1, e2⟩ := h3 i hi hst
    by_cases hw : A.WritesAll
    · rw [e1 hw, e0]
    · rcases hz i hi with hz | hz | hz
      · exact absurd hz hst
      · exact absurd hz hw
      · rw [e2 hw, hz, e0]

end Lis
