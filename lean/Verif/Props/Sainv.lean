import Verif.Spec.Sainv
import Verif.Lemmas.Sainv
import Verif.Props.CgArray
import Mathlib.LinearAlgebra.Matrix.NonsingularInverse
import Mathlib.Tactic.FieldSimp
import Mathlib.Tactic.LinearCombination

/-!
# C55: the SAINV preconditioner (`-p sainv`)
-/

namespace Lis
open Finset
variable {R : Type}

/-! ### what the factorization computes -/

theorem lineEntry_csr [AddCommMonoid R] (A : Csr R) (i c : ℕ) : lineEntry A.ptr A.index A.value i c = A.entry i c := rfl
theorem lineEntry_csc [AddCommMonoid R] (B : Csc R) (i c : ℕ) : lineEntry B.ptr B.index B.value i c = B.entry c i := rfl

/-- the state of the factorization after `m` steps -/
structure SvSt.At [Field R] (n : ℕ) (b : ℕ → Biconj R) (p : ℕ → R) (m : ℕ) (s : SvSt R) : Prop where
  gw : SvGood n s.W
  gz : SvGood n s.Z
  dsz : n ≤ s.D.size
  clear : SvClear n s.ww
  ilsz : s.il.size = n
  iusz : s.iu.size = n
  w : ∀ j, j < n → ∀ c, (s.W.get j).coef c = (b m).W j c
  z : ∀ j, j < n → ∀ c, (s.Z.get j).coef c = (b m).Z j c
  d : ∀ j, j < m → s.D.get j = 1 / p j

theorem svStep_spec [Field R] (F : SvOps R) (J : SvJunk R) {A : Csr R} {B : Csc R} (hA : A.WF) (hnp : A.np = A.n) (hB : B.WF)
    (hbn : B.n = A.n) (hbp : B.np = A.n) (he : ∀ i j, i < A.n → j < A.n → B.entry i j = A.entry i j) (h10 : 10 ≤ A.n)
    {i : ℕ} (hi : i < A.n) {s : SvSt R}
    (h : s.At A.n (biconj A.n A.entry fun i => F.drop (A.svNrm F i))
      (fun j => (biconj A.n A.entry (fun i => F.drop (A.svNrm F i)) j).piv A.n A.entry j) i) :
    Ok (svStep F J A B i s) fun s' => s'.At A.n (biconj A.n A.entry fun i => F.drop (A.svNrm F i))
      (fun j => (biconj A.n A.entry (fun i => F.drop (A.svNrm F i)) j).piv A.n A.entry j) (i + 1) := by
  obtain ⟨b, hb⟩ : ∃ b, b = biconj A.n A.entry fun i => F.drop (A.svNrm F i) := ⟨_, rfl⟩
  rw [← hb] at h ⊢
  have hsucc : b (i + 1) = (b i).step A.n A.entry (fun i => F.drop (A.svNrm F i)) i := by rw [hb]; rfl
  have ha : 1 ≤ A.n / 10 := by omega
  unfold svStep
  simp only [Ok_bind, Ok_rd]
  refine (svNrm_spec F hA hi).mono ?_
  rintro nrm rfl
  refine ⟨by rw [h.gz.1]; exact hi, ?_⟩
  have hp := hB.ptr
  rw [hbp] at hp
  refine (svScan_spec hp hB.isz hB.vsz (fun k hk => hbn ▸ hB.idx k hk) false hi (h.gz.2 i hi) h.clear h.ilsz).mono ?_
  rintro l ⟨l1, l2, l3, l4, l5, l6, l7, l8⟩
  refine ⟨by rw [h.gw.1]; exact hi, ?_⟩
  refine (svScan_spec hA.ptr hA.isz hA.vsz (fun k hk => hnp ▸ hA.idx k hk) true hi (h.gw.2 i hi) l1 h.iusz).mono ?_
  rintro u ⟨u1, u2, u3, u4, u5, u6, u7, u8⟩
  refine (svPivot_spec hi u2 (h.gz.2 i hi)).mono ?_
  rintro t ht
  have hl : ∀ c, i < c → c < A.n → l.val.get c = (b i).l A.n A.entry i c := by
    intro c hc hcn
    rw [l8 c (.inr hc)]
    refine sum_congr rfl fun k hk => ?_
    rw [lineEntry_csc, he c k hcn (mem_range.1 hk), h.z i hi]
  have hu : ∀ c, u.val.get c = (b i).u A.n A.entry i c := by
    intro c
    rw [u8 c (.inl rfl)]
    refine sum_congr rfl fun k hk => ?_
    rw [lineEntry_csr, h.w i hi]
  have ht' : t = (b i).piv A.n A.entry i := by
    rw [ht]
    refine sum_congr rfl fun k hk => ?_
    rw [hu, h.z i hi]
  rw [Ok_wr]
  refine ⟨lt_of_lt_of_le hi h.dsz, ?_⟩
  refine (svSubAll_spec F J ha hi (A.svNrm F i) (1 / t) l2 (by omega) l5 l6 l7 h.gw u1).mono ?_
  rintro ⟨W, ww⟩ ⟨w1, w2, w3, w4⟩
  simp only at w1 w2 w3 w4 ⊢
  refine (svSubAll_spec F J ha hi (A.svNrm F i) (1 / t) u2 (by omega) u5 u6 u7 h.gz w2).mono ?_
  rintro ⟨Z, ww'⟩ ⟨z1, z2, z3, z4⟩
  simp only at z1 z2 z3 z4 ⊢
  rw [Ok_pure]
  refine ⟨w1, z1, ?_, z2, l3, u3, fun j hj c => ?_, fun j hj c => ?_, fun j hj => ?_⟩
  · exact h.dsz
  · rw [hsucc]
    simp only [Biconj.step]
    split <;> rename_i hij
    · rw [w4 j hij hj c, h.w j hj, h.w i hi, hl j hij hj, ht', mul_one_div]
    · rw [w3 j (by omega), h.w j hj]
  · rw [hsucc]
    simp only [Biconj.step]
    split <;> rename_i hij
    · rw [z4 j hij hj c, h.z j hj, h.z i hi, hu j, ht', mul_one_div]
    · rw [z3 j (by omega), h.z j hj]
  · simp only [Arr.set_get]
    split <;> rename_i hij
    · rw [hij, ht']
    · exact h.d j (by omega)

theorem svInit_spec [CommRing R] (J : SvJunk R) {annz n : ℕ} (ha : 1 ≤ annz) {M : Arr (SvRow R)} (hM : M.size = n) :
    Ok (svInit J annz n M) fun M' => SvGood n M' ∧ ∀ j, j < n → ∀ c, (M'.get j).coef c = if c = j then 1 else 0 := by
  unfold svInit
  refine Ok_loop_le (fun m M' => M'.size = n ∧ (∀ j, j < m → (M'.get j).Good j) ∧
    ∀ j, j < m → ∀ c, (M'.get j).coef c = if c = j then 1 else 0) (Nat.zero_le _)
    ⟨hM, fun j hj => by omega, fun j hj => by omega⟩ ?_ fun s hs => ⟨⟨hs.1, hs.2.1⟩, hs.2.2⟩
  rintro m M' - hm ⟨h1, h2, h3⟩
  rw [Ok_bind]
  refine (svInitRow_spec J ha m).mono ?_
  rintro r ⟨g1, g2⟩
  rw [Ok_wr]
  refine ⟨by omega, by simpa using h1, fun j hj => ?_, fun j hj c => ?_⟩
  · rw [Arr.set_get]
    split <;> rename_i he
    · rw [he]; exact g1
    · exact h2 j (by omega)
  · rw [Arr.set_get]
    split <;> rename_i he
    · rw [he, g2]
    · exact h3 j (by omega) c

/-- **C55 (factorization).** For every matrix of order at least 10 (well-formed CSR) and every drop test, creating the
SAINV preconditioner stays inside all its arrays, whatever fresh memory contains, and the rows of `W` and `Z` hold the vectors of
biconjugation with dropping (`biconj`), the pivots being the reciprocals `1/D_ii`. -/
theorem createSainv_spec [Field R] (F : SvOps R) (J : SvJunk R) {A : Csr R} (hA : A.WF) (hnp : A.np = A.n) (h10 : 10 ≤ A.n)
    {W0 Z0 : Arr (SvRow R)} {D0 : Arr R} (hW : W0.size = A.n) (hZ : Z0.size = A.n) (hD : A.n ≤ D0.size) :
    Ok (createSainv F J A W0 Z0 D0) fun f => SvGood A.n f.W ∧ SvGood A.n f.Z ∧ A.n ≤ f.D.size ∧
      (∀ j, j < A.n → ∀ c, (f.W.get j).coef c = (biconj A.n A.entry (fun i => F.drop (A.svNrm F i)) A.n).W j c) ∧
      (∀ j, j < A.n → ∀ c, (f.Z.get j).coef c = (biconj A.n A.entry (fun i => F.drop (A.svNrm F i)) A.n).Z j c) ∧
      ∀ j, j < A.n → f.D.get j =
        1 / (biconj A.n A.entry (fun i => F.drop (A.svNrm F i)) j).piv A.n A.entry j := by
  unfold createSainv
  rw [Ok_bind]
  refine (csr2csc_spec J.conv J.convV A hA).mono ?_
  rintro B ⟨b1, b2, b3, -, b5⟩
  rw [Ok_bind]
  refine Ok_loop_le (fun m w => w.size = A.n ∧ ∀ c, c < m → w.get c = 0) (Nat.zero_le _) ⟨rfl, fun c hc => by omega⟩ ?_ ?_
  · rintro m w - hm ⟨w1, w2⟩
    rw [Ok_wr]
    refine ⟨by omega, by simpa using w1, fun c hc => ?_⟩
    rw [Arr.set_get]
    split
    · rfl
    · exact w2 c (by omega)
  rintro ww ⟨w1, w2⟩
  rw [Ok_bind]
  refine (svInit_spec J (annz := A.n / 10) (by omega) hW).mono ?_
  rintro W ⟨g1, g2⟩
  rw [Ok_bind]
  refine (svInit_spec J (annz := A.n / 10) (by omega) hZ).mono ?_
  rintro Z ⟨g3, g4⟩
  rw [Ok_bind]
  refine Ok_loop_le (fun m s => SvSt.At A.n (biconj A.n A.entry fun i => F.drop (A.svNrm F i))
      (fun j => (biconj A.n A.entry (fun i => F.drop (A.svNrm F i)) j).piv A.n A.entry j) m s) (Nat.zero_le _)
    ⟨g1, g3, hD, ⟨w1, w2⟩, rfl, rfl, g2, g4, fun j hj => by omega⟩ ?_ ?_
  · intro i s _ hi h
    exact svStep_spec F J hA hnp b1 b2 (b3.trans hnp) (fun i j h1 h2 => b5 i j h1 (hnp ▸ h2)) h10 hi h
  · intro s h
    rw [Ok_pure]
    exact ⟨h.gw, h.gz, h.dsz, h.w, h.z, h.d⟩

/-- **C55 (finding).** For every matrix of order 1 to 9 the preconditioner cannot be created without a write past the end of
the rows: `annz = n / 10` is 0, and the first statement stores a 1 in the empty row. -/
theorem createSainv_small [Field R] (F : SvOps R) (J : SvJunk R) {A : Csr R} (h0 : 0 < A.n) (h10 : A.n < 10)
    (W0 Z0 : Arr (SvRow R)) (D0 : Arr R) : createSainv F J A W0 Z0 D0 = none := by
  have hz : A.n / 10 = 0 := by omega
  have h : svInit J (A.n / 10) A.n W0 = none := by
    unfold svInit
    refine loop_none (i := 0) le_rfl h0 fun s => ?_
    rw [hz]
    rfl
  unfold createSainv
  cases csr2csc J.conv J.convV A with
  | none => rfl
  | some B =>
    simp only [Option.bind_eq_bind, Option.bind_some, h]
    cases (loop 0 A.n (.malloc A.n J.work) fun i (w : Arr ℕ) => w.wr i 0) <;> rfl

/-! ### applying it -/

section apply
variable [CommRing R]

theorem matvechIlu_spec {conj : R → R} (hc : ∀ a b, conj (a + b) = conj a + conj b) (hc0 : conj 0 = 0) {n : ℕ}
    {M : Arr (SvRow R)} (hM : SvGood n M) {x y : Arr R} (hx : n ≤ x.size) (hy : n ≤ y.size) :
    Ok (matvechIlu conj n M x y) fun y' => y'.size = y.size ∧
      ∀ i, i < n → y'.get i = ∑ c ∈ range n, conj ((M.get i).coef c) * x.get c := by
  unfold matvechIlu
  refine Ok_loop_le (fun m y' => y'.size = y.size ∧
      ∀ i, i < m → y'.get i = ∑ c ∈ range n, conj ((M.get i).coef c) * x.get c) (Nat.zero_le _) ⟨rfl, fun i hi => by omega⟩ ?_
    fun s hs => hs
  rintro m y' - hm ⟨h1, h2⟩
  rw [Ok_bind, Ok_rd]
  refine ⟨by rw [hM.1]; exact hm, ?_⟩
  have g := hM.2 m hm
  have hle := g.le
  obtain ⟨r, hr⟩ : ∃ r, r = M.get m := ⟨_, rfl⟩
  rw [← hr] at g hle ⊢
  rw [Ok_bind]
  refine Ok_loop_sum' (fun k => conj (r.val.get k) * x.get (r.idx.get k)) ?_ ?_
  · intro k t _ hk
    have := g.idx k hk
    simp only [Ok_bind, Ok_rd, Ok_pure]
    exact ⟨by rw [g.isz]; omega, by rw [g.vsz]; omega, by omega, trivial⟩
  · rw [zero_add, Ok_wr]
    refine ⟨by omega, by simpa using h1, fun i hi => ?_⟩
    rw [Arr.set_get]
    split <;> rename_i he
    · have hs : ∀ c, conj (r.coef c) = ∑ k ∈ range r.nnz, if r.idx.get k = c then conj (r.val.get k) else 0 := by
        intro c
        unfold SvRow.coef
        have : ∀ s : Finset ℕ, conj (∑ k ∈ s, if r.idx.get k = c then r.val.get k else 0) =
            ∑ k ∈ s, if r.idx.get k = c then conj (r.val.get k) else 0 := by
          intro s
          induction s using Finset.induction_on with
          | empty => simpa using hc0
          | insert a s ha ih =>
            rw [sum_insert ha, sum_insert ha, hc, ih]
            congr 1
            split
            · rfl
            · exact hc0
        exact this _
      rw [he, ← hr]
      simp only [hs, sum_mul, ite_mul, zero_mul]
      rw [sum_comm, range_eq_Ico]
      refine sum_congr rfl fun k hk => ?_
      have := g.idx k (mem_Ico.1 hk).2
      rw [sum_ite_eq, if_pos (mem_range.2 (by omega))]
    · exact h2 i (by omega)

theorem matvecIlu_spec {n : ℕ} {M : Arr (SvRow R)} (hM : SvGood n M) {x y : Arr R} (hx : n ≤ x.size) (hy : n ≤ y.size) :
    Ok (matvecIlu n n M x y) fun y' => y'.size = y.size ∧
      ∀ c, c < n → y'.get c = ∑ i ∈ range n, (M.get i).coef c * x.get i := by
  unfold matvecIlu
  rw [Ok_bind]
  refine Ok_loop_le (fun m y' => y'.size = y.size ∧ ∀ i, i < m → y'.get i = 0) (Nat.zero_le _) ⟨rfl, fun i hi => by omega⟩ ?_ ?_
  · rintro m y' - hm ⟨h1, h2⟩
    rw [Ok_wr]
    refine ⟨by omega, by simpa using h1, fun i hi => ?_⟩
    rw [Arr.set_get]
    split
    · rfl
    · exact h2 i (by omega)
  · rintro y0 ⟨h1, h2⟩
    refine Ok_loop_le (fun m y' => y'.size = y.size ∧
      ∀ c, c < n → y'.get c = ∑ i ∈ range m, (M.get i).coef c * x.get i) (Nat.zero_le _)
      ⟨h1, fun c hc => by simp [h2 c hc]⟩ ?_ fun s hs => hs
    rintro m y1 - hm ⟨h3, h4⟩
    rw [Ok_bind, Ok_rd]
    refine ⟨by rw [hM.1]; exact hm, ?_⟩
    have g := hM.2 m hm
    have hle := g.le
    obtain ⟨r, hr⟩ : ∃ r, r = M.get m := ⟨_, rfl⟩
    rw [← hr] at g hle ⊢
    refine Ok_loop_le (fun k y' => y'.size = y.size ∧ ∀ c, c < n → y'.get c = y1.get c +
      (∑ q ∈ range k, if r.idx.get q = c then r.val.get q else 0) * x.get m) (Nat.zero_le _)
      ⟨h3, fun c _ => by simp⟩ ?_ ?_
    · rintro k y2 - hk ⟨h5, h6⟩
      have := g.idx k hk
      simp only [Ok_bind, Ok_rd, Ok_wr]
      refine ⟨by rw [g.isz]; omega, by omega, by rw [g.vsz]; omega, by omega, by omega, by simpa using h5, fun c hc => ?_⟩
      rw [Arr.set_get, sum_range_succ]
      split <;> rename_i he
      · rw [h6 _ (by omega), ← he, if_pos rfl]
        ring
      · rw [h6 c hc, if_neg (fun h => he h.symm), add_zero]
    · rintro y2 ⟨h5, h6⟩
      refine ⟨h5, fun c hc => ?_⟩
      rw [h6 c hc, h4 c hc, sum_range_succ, ← hr]
      rfl

/-- **C55 (application).** `lis_psolve` with SAINV computes `Z^T D conj(W) b`: component `c` is `Σ_i Z_i(c) d_i (Σ_k conj(W_i(k))
b(k))`; it writes only `x` and `precon->temp`. -/
theorem psolveSainv_spec {conj conjD : R → R} (hc : ∀ a b, conj (a + b) = conj a + conj b) (hc0 : conj 0 = 0) {n : ℕ}
    {W Z : Arr (SvRow R)} (hW : SvGood n W) (hZ : SvGood n Z) {D tmp b x : Arr R} (hD : n ≤ D.size) (ht : n ≤ tmp.size)
    (hb : n ≤ b.size) (hx : n ≤ x.size) :
    Ok (psolveSainv conj conjD n W Z D tmp b x) fun x' => x'.size = x.size ∧
      ∀ c, c < n → x'.get c = ∑ i ∈ range n, (Z.get i).coef c *
        ((∑ k ∈ range n, conj ((W.get i).coef k) * b.get k) * conjD (D.get i)) := by
  unfold psolveSainv
  rw [Ok_bind]
  refine (matvechIlu_spec hc hc0 hW hb hx).mono ?_
  rintro x1 ⟨a1, a2⟩
  rw [Ok_bind]
  refine Ok_loop_le (fun m t => t.size = tmp.size ∧ ∀ i, i < m → t.get i = x1.get i * conjD (D.get i)) (Nat.zero_le _)
    ⟨rfl, fun i hi => by omega⟩ ?_ ?_
  · rintro m t - hm ⟨h1, h2⟩
    simp only [Ok_bind, Ok_rd, Ok_wr]
    refine ⟨by omega, by omega, by omega, by simpa using h1, fun i hi => ?_⟩
    rw [Arr.set_get]
    split <;> rename_i he
    · rw [he]
    · exact h2 i (by omega)
  · rintro t ⟨h1, h2⟩
    refine (matvecIlu_spec hZ (x := t) (by omega) (y := x1) (by omega)).mono ?_
    rintro x' ⟨e1, e2⟩
    refine ⟨e1.trans a1, fun c hc => ?_⟩
    rw [e2 c hc]
    refine sum_congr rfl fun i hi => ?_
    rw [h2 i (mem_range.1 hi), a2 i (mem_range.1 hi)]

end apply

/-! ### without dropping it is the inverse -/

section algebra
variable [Field R] {n : ℕ} {a : ℕ → ℕ → R} {drop : ℕ → R → R}

/-- `w^T A z` -/
def bil (n : ℕ) (a : ℕ → ℕ → R) (w z : ℕ → R) : R := ∑ j ∈ range n, w j * ∑ k ∈ range n, a j k * z k

theorem bil_comm (w z : ℕ → R) : bil n a w z = ∑ k ∈ range n, (∑ j ∈ range n, a j k * w j) * z k := by
  unfold bil
  simp only [mul_sum, sum_mul]
  rw [sum_comm]
  exact sum_congr rfl fun k _ => sum_congr rfl fun j _ => by ring

theorem bil_sub_left (w w' : ℕ → R) (α : R) (z : ℕ → R) :
    bil n a (fun c => w c - α * w' c) z = bil n a w z - α * bil n a w' z := by
  unfold bil
  rw [mul_sum, ← sum_sub_distrib]
  exact sum_congr rfl fun j _ => by ring

theorem bil_sub_right (w z z' : ℕ → R) (α : R) :
    bil n a w (fun c => z c - α * z' c) = bil n a w z - α * bil n a w z' := by
  simp only [bil_comm]
  rw [mul_sum, ← sum_sub_distrib]
  exact sum_congr rfl fun j _ => by ring

theorem Biconj.piv_eq (s : Biconj R) (i : ℕ) : s.piv n a i = bil n a (s.W i) (s.Z i) := by
  rw [bil_comm]; rfl

theorem bil_unit_left {j : ℕ} (hj : j < n) (z : ℕ → R) : bil n a (fun c => if c = j then 1 else 0) z = ∑ k ∈ range n, a j k * z k := by
  unfold bil
  simp [hj]

theorem bil_unit_right {j : ℕ} (hj : j < n) (w : ℕ → R) :
    bil n a w (fun c => if c = j then 1 else 0) = ∑ k ∈ range n, a k j * w k := by
  rw [bil_comm]
  simp [hj]

theorem biconj_fixed {j m : ℕ} (h : j ≤ m) : (biconj n a drop m).W j = (biconj n a drop j).W j ∧
    (biconj n a drop m).Z j = (biconj n a drop j).Z j := by
  induction m, h using Nat.le_induction with
  | base => exact ⟨rfl, rfl⟩
  | succ m hm ih =>
    rw [← ih.1, ← ih.2]
    constructor <;> funext c <;> simp [biconj, Biconj.step, Nat.not_lt.2 hm]

theorem biconj_congr {drop' : ℕ → R → R} {m : ℕ} (h : ∀ i, i < m → drop i = drop' i) :
    biconj n a drop m = biconj n a drop' m := by
  induction m with
  | zero => rfl
  | succ m ih =>
    simp only [biconj]
    rw [ih fun i hi => h i (by omega)]
    simp only [Biconj.step, h m (by omega)]

/-- the vectors are unit lower triangular -/
theorem biconj_tri (hd : ∀ i, drop i 0 = 0) (m : ℕ) : ∀ j, (biconj n a drop m).W j j = 1 ∧ (biconj n a drop m).Z j j = 1 ∧
    ∀ c, j < c → (biconj n a drop m).W j c = 0 ∧ (biconj n a drop m).Z j c = 0 := by
  induction m with
  | zero =>
    intro j
    simp only [biconj, if_true, true_and]
    intro c hc
    simp [show c ≠ j by omega]
  | succ m ih =>
    intro j
    simp only [biconj, Biconj.step]
    by_cases hj : m < j
    · obtain ⟨-, -, h0⟩ := ih m
      simp only [hj, if_true, (h0 j hj).1, (h0 j hj).2, mul_zero, hd, sub_zero]
      refine ⟨(ih j).1, (ih j).2.1, fun c hc => ?_⟩
      rw [(h0 c (by omega)).1, (h0 c (by omega)).2, mul_zero, mul_zero, hd, sub_zero, sub_zero]
      exact (ih j).2.2 c hc
    · simp only [hj, if_false]
      exact ih j

theorem biconj_key (hd : ∀ i t, drop i t = t) (m : ℕ) :
    (∀ y, (∀ k, k < m → bil n a ((biconj n a drop k).W k) y = 0) → ∀ j, m ≤ j → j < n →
      bil n a ((biconj n a drop m).W j) y = ∑ k ∈ range n, a j k * y k) ∧
    (∀ y, (∀ k, k < m → bil n a y ((biconj n a drop k).Z k) = 0) → ∀ j, m ≤ j → j < n →
      bil n a y ((biconj n a drop m).Z j) = ∑ k ∈ range n, a k j * y k) := by
  induction m with
  | zero => exact ⟨fun y _ j _ hj => bil_unit_left hj y, fun y _ j _ hj => bil_unit_right hj y⟩
  | succ m ih =>
    constructor
    · intro y hy j hj hn
      simp only [biconj, Biconj.step, hd, show m < j by omega, if_true]
      rw [bil_sub_left, hy m (by omega), mul_zero, sub_zero]
      exact ih.1 y (fun k hk => hy k (by omega)) j (by omega) hn
    · intro y hy j hj hn
      simp only [biconj, Biconj.step, hd, show m < j by omega, if_true]
      rw [bil_sub_right, hy m (by omega), mul_zero, sub_zero]
      exact ih.2 y (fun k hk => hy k (by omega)) j (by omega) hn

theorem biconj_orth (hd : ∀ i t, drop i t = t) (hp : ∀ i, i < n → (biconj n a drop i).piv n a i ≠ 0) {m : ℕ} (hm : m ≤ n) :
    ∀ i j, i < m → i < j → j < n →
      bil n a ((biconj n a drop m).W j) ((biconj n a drop i).Z i) = 0 ∧
      bil n a ((biconj n a drop i).W i) ((biconj n a drop m).Z j) = 0 := by
  induction m with
  | zero => intro i j hi; omega
  | succ m ih =>
    intro i j hi hij hj
    have ih := ih (by omega)
    by_cases hmj : m < j
    · simp only [biconj, Biconj.step, hd, hmj, if_true]
      rw [bil_sub_left, bil_sub_right]
      rcases Nat.lt_or_ge i m with him | him
      · rw [(ih i j him hij hj).1, (ih i j him hij hj).2, (ih i m him him (by omega)).1, (ih i m him him (by omega)).2]
        simp
      · obtain rfl : i = m := by omega
        have hpi := hp i (by omega)
        rw [← Biconj.piv_eq, (biconj_key hd i).1 _ (fun k hk => (ih k i hk hk (by omega)).2) j hij.le hj,
          (biconj_key hd i).2 _ (fun k hk => (ih k i hk hk (by omega)).1) j hij.le hj, div_mul_cancel₀ _ hpi,
          div_mul_cancel₀ _ hpi]
        exact ⟨sub_self _, sub_self _⟩
    · have h1 := biconj_fixed (n := n) (a := a) (drop := drop) (show j ≤ m + 1 by omega)
      have h2 := biconj_fixed (n := n) (a := a) (drop := drop) (show j ≤ m by omega)
      rw [h1.1, h1.2, ← h2.1, ← h2.2]
      exact ih i j (by omega) hij hj

open Matrix

theorem mat_bil (W Z : ℕ → ℕ → R) (i j : Fin n) : (toMat n W * toMat n a * (toMat n Z)ᵀ) i j = bil n a (W i) (Z j) := by
  rw [Matrix.mul_assoc, mul_apply]
  unfold bil
  rw [← Fin.sum_univ_eq_sum_range (fun p => W i p * ∑ k ∈ range n, a p k * Z j k)]
  refine Fintype.sum_congr _ _ fun p => ?_
  rw [mul_apply, ← Fin.sum_univ_eq_sum_range (fun k => a p k * Z j k)]
  rfl

/-- the matrix `Z^T D W` -/
def sainvMat (n : ℕ) (W Z : ℕ → ℕ → R) (d : ℕ → R) : Matrix (Fin n) (Fin n) R :=
  (toMat n Z)ᵀ * diagonal (fun i : Fin n => d i) * toMat n W

/-- **C55 (exact inverse).** Biconjugation without dropping, no pivot being zero, gives the inverse of `A`. -/
theorem biconj_inverse (hd : ∀ i t, drop i t = t) (hp : ∀ i, i < n → (biconj n a drop i).piv n a i ≠ 0) :
    toMat n a * sainvMat n (biconj n a drop n).W (biconj n a drop n).Z (fun i => 1 / (biconj n a drop i).piv n a i) = 1 := by
  have h : toMat n (biconj n a drop n).W * toMat n a * (toMat n (biconj n a drop n).Z)ᵀ =
      diagonal fun i : Fin n => (biconj n a drop i).piv n a i := by
    ext i j
    rw [mat_bil, diagonal_apply]
    have o := biconj_orth (a := a) hd hp (le_refl n)
    split <;> rename_i he
    · subst he
      rw [(biconj_fixed i.2.le).1, (biconj_fixed i.2.le).2, Biconj.piv_eq]
    · rcases Nat.lt_or_ge i j with hij | hij
      · rw [(biconj_fixed i.2.le).1]
        exact (o i j i.2 hij j.2).2
      · rw [(biconj_fixed j.2.le).2]
        exact (o j i j.2 (lt_of_le_of_ne hij fun h => he (Fin.ext h.symm)) i.2).1
  obtain ⟨W, hW⟩ : ∃ W, W = toMat n (biconj n a drop n).W := ⟨_, rfl⟩
  obtain ⟨Z, hZ⟩ : ∃ Z, Z = toMat n (biconj n a drop n).Z := ⟨_, rfl⟩
  unfold sainvMat
  rw [← hW, ← hZ] at h ⊢
  obtain ⟨D, hD⟩ : ∃ D, D = diagonal (fun i : Fin n => 1 / (biconj n a drop i).piv n a i) := ⟨_, rfl⟩
  have h2 : D * W * toMat n a * Zᵀ = 1 := by
    rw [Matrix.mul_assoc D, Matrix.mul_assoc D, h, hD, diagonal_mul_diagonal, ← diagonal_one]
    congr 1
    funext i
    exact one_div_mul_cancel (hp i i.2)
  rw [← hD, mul_eq_one_comm, Matrix.mul_assoc, Matrix.mul_assoc, ← Matrix.mul_assoc D, mul_eq_one_comm]
  exact h2

/-- what `lis_psolve` computes is the product with that matrix -/
theorem sainvMat_mulVec {W Z : Arr (SvRow R)} {W' Z' : ℕ → ℕ → R} (hw : ∀ j, j < n → ∀ c, (W.get j).coef c = W' j c)
    (hz : ∀ j, j < n → ∀ c, (Z.get j).coef c = Z' j c) {D : Arr R} {d : ℕ → R} (hd : ∀ j, j < n → D.get j = d j) {b x : Arr R}
    (h : ∀ c, c < n → x.get c = ∑ i ∈ range n, (Z.get i).coef c *
        ((∑ k ∈ range n, id ((W.get i).coef k) * b.get k) * id (D.get i))) (c : Fin n) :
    x.get c = (sainvMat n W' Z' d *ᵥ fun i : Fin n => b.get i) c := by
  rw [h c c.2]
  unfold sainvMat
  rw [← mulVec_mulVec, ← mulVec_mulVec, mulVec, dotProduct,
    ← Fin.sum_univ_eq_sum_range (fun i => (Z.get i).coef c * ((∑ k ∈ range n, id ((W.get i).coef k) * b.get k) * id (D.get i)))]
  refine Fintype.sum_congr _ _ fun i => ?_
  rw [transpose_apply, mulVec_diagonal, mulVec, dotProduct,
    ← Fin.sum_univ_eq_sum_range (fun k => id ((W.get i).coef k) * b.get k)]
  simp only [id, toMat, hw i i.2, hz i i.2, hd i i.2]
  ring

/-- **C55 (exact inverse, as called).** If nothing is dropped (drop tolerance 0) and no pivot vanishes, `lis_psolve` solves the
system: `A x = b`. -/
theorem sainv_solves (F : SvOps R) (J : SvJunk R) {A : Csr R} (hA : A.WF)
    (hF : ∀ i, i < A.n → ∀ t, F.keep (A.svNrm F i) t = false → t = 0)
    (hnp : A.np = A.n) (h10 : 10 ≤ A.n) {W0 Z0 : Arr (SvRow R)} {D0 : Arr R} (hW : W0.size = A.n) (hZ : Z0.size = A.n)
    (hD : A.n ≤ D0.size) (hp : ∀ i, i < A.n → (biconj A.n A.entry (fun _ t => t) i).piv A.n A.entry i ≠ 0)
    {tmp b x : Arr R} (ht : A.n ≤ tmp.size) (hb : A.n ≤ b.size) (hx : A.n ≤ x.size) :
    Ok (do
      let f ← createSainv F J A W0 Z0 D0
      psolveSainv id id A.n f.W f.Z f.D tmp b x) fun x' => x'.size = x.size ∧
      ∀ i, i < A.n → ∑ c ∈ range A.n, A.entry i c * x'.get c = b.get i := by
  rw [Ok_bind]
  refine (createSainv_spec F J hA hnp h10 hW hZ hD).mono ?_
  rintro f ⟨f1, f2, f3, f4, f5, f6⟩
  refine (psolveSainv_spec (conj := id) (conjD := id) (fun _ _ => rfl) rfl f1 f2 f3 ht hb hx).mono ?_
  rintro x' ⟨x1, x2⟩
  refine ⟨x1, fun i hi => ?_⟩
  have hdr : ∀ i, i < A.n → F.drop (A.svNrm F i) = fun t => t := by
    intro i hi
    funext t
    unfold SvOps.drop
    split <;> rename_i h
    · rfl
    · exact (hF i hi _ (by simpa using h)).symm
  have hcg : ∀ m, m ≤ A.n → biconj A.n A.entry (fun i => F.drop (A.svNrm F i)) m = biconj A.n A.entry (fun _ t => t) m :=
    fun m hm => biconj_congr fun i hi => hdr i (by omega)
  rw [hcg A.n le_rfl] at f4 f5
  have f6 : ∀ j, j < A.n → f.D.get j = 1 / (biconj A.n A.entry (fun _ t => t) j).piv A.n A.entry j := fun j hj => by
    rw [f6 j hj, hcg j hj.le]
  have e := sainvMat_mulVec f4 f5 f6 x2
  have inv := biconj_inverse (n := A.n) (a := A.entry) (drop := fun _ t => t) (fun _ _ => rfl) hp
  have h2 := congrFun (congrArg (fun M => M *ᵥ fun i : Fin A.n => b.get i) inv) ⟨i, hi⟩
  simp only [one_mulVec] at h2
  rw [← mulVec_mulVec, mulVec, dotProduct] at h2
  rw [← h2, ← Fin.sum_univ_eq_sum_range (fun c => A.entry i c * x'.get c)]
  refine Fintype.sum_congr _ _ fun c => ?_
  rw [e c]

/-- **C55 (finding, complex).** The complex build applies `Z^T D conj(W)`. Without dropping, this is the inverse only if `W` is
real. -/
theorem sainv_complex_iff [StarRing R] (hd : ∀ i t, drop i t = t)
    (hp : ∀ i, i < n → (biconj n a drop i).piv n a i ≠ 0) :
    toMat n a * sainvMat n (fun i j => star ((biconj n a drop n).W i j)) (biconj n a drop n).Z
        (fun i => 1 / (biconj n a drop i).piv n a i) = 1 ↔
      ∀ i j, i < n → j < n → star ((biconj n a drop n).W i j) = (biconj n a drop n).W i j := by
  have inv := biconj_inverse (n := n) (a := a) (drop := drop) hd hp
  constructor
  · intro h i j hi hj
    have inv' := inv
    rw [mul_eq_one_comm] at inv'
    have h1 := (left_inv_eq_right_inv inv' h).symm
    unfold sainvMat at h1 inv'
    obtain ⟨Q, hQ⟩ : ∃ Q, Q = (toMat n (biconj n a drop n).Z)ᵀ *
        diagonal (fun i : Fin n => 1 / (biconj n a drop i).piv n a i) := ⟨_, rfl⟩
    rw [← hQ] at h1 inv'
    rw [Matrix.mul_assoc, mul_eq_one_comm] at inv'
    have h2 := congrArg (fun X => (toMat n (biconj n a drop n).W * toMat n a) * X) h1
    rw [← Matrix.mul_assoc, ← Matrix.mul_assoc, inv', Matrix.one_mul, Matrix.one_mul] at h2
    exact congrFun (congrFun h2 ⟨i, hi⟩) ⟨j, hj⟩
  · intro h
    have : toMat n (fun i j => star ((biconj n a drop n).W i j)) = toMat n (biconj n a drop n).W := by
      ext i j
      exact h i j i.2 j.2
    unfold sainvMat at inv ⊢
    rw [this]
    exact inv

end algebra

/-- **C55 (adjoint).** `lis_psolveh` with SAINV applies the conjugate transpose of what `lis_psolve` applies: `(y, M b) =
(M^H y, b)` for all `b`, `y`, as BiCG and its relatives require. -/
theorem sainv_adjoint [CommRing R] [StarRing R] {n : ℕ} {W Z : Arr (SvRow R)} (hW : SvGood n W) (hZ : SvGood n Z)
    {D tmp tmp' b x y x' : Arr R} (hD : n ≤ D.size) (ht : n ≤ tmp.size) (ht' : n ≤ tmp'.size)
    (hb : n ≤ b.size) (hx : n ≤ x.size) (hy : n ≤ y.size) (hx' : n ≤ x'.size) :
    Ok (do
      let p ← psolveSainv star id n W Z D tmp b x
      let q ← psolveSainv star star n Z W D tmp' y x'
      pure (p, q)) fun r =>
      ∑ c ∈ range n, star (y.get c) * r.1.get c = ∑ c ∈ range n, star (r.2.get c) * b.get c := by
  rw [Ok_bind]
  refine (psolveSainv_spec (conj := star) (conjD := id) star_add (star_zero _) hW hZ hD ht hb hx).mono ?_
  rintro p ⟨-, p2⟩
  rw [Ok_bind]
  refine (psolveSainv_spec (conj := star) (conjD := star) star_add (star_zero _) hZ hW hD ht' hy hx').mono ?_
  rintro q ⟨-, q2⟩
  rw [Ok_pure]
  simp only
  have e1 : ∑ c ∈ range n, star (y.get c) * p.get c = ∑ c ∈ range n, ∑ i ∈ range n, ∑ k ∈ range n,
      star (y.get c) * (Z.get i).coef c * D.get i * (star ((W.get i).coef k) * b.get k) := by
    refine sum_congr rfl fun c hc => ?_
    rw [p2 c (mem_range.1 hc), mul_sum]
    refine sum_congr rfl fun i _ => ?_
    rw [sum_mul, mul_sum, mul_sum]
    exact sum_congr rfl fun k _ => by simp only [id]; ring
  have e2 : ∑ k ∈ range n, star (q.get k) * b.get k = ∑ k ∈ range n, ∑ i ∈ range n, ∑ c ∈ range n,
      star (y.get c) * (Z.get i).coef c * D.get i * (star ((W.get i).coef k) * b.get k) := by
    refine sum_congr rfl fun k hk => ?_
    rw [q2 k (mem_range.1 hk), star_sum, sum_mul]
    refine sum_congr rfl fun i _ => ?_
    simp only [star_mul', star_star, star_sum, sum_mul, mul_sum]
    exact sum_congr rfl fun c _ => by ring
  rw [e1, e2, sum_comm, sum_comm (s := range n) (t := range n)
    (f := fun k i => ∑ c ∈ range n, star (y.get c) * (Z.get i).coef c * D.get i * (star ((W.get i).coef k) * b.get k))]
  exact sum_congr rfl fun i _ => sum_comm

/-! ### symmetric positive definite matrices, with any dropping -/

open Matrix

section spd
variable [Field R] [LinearOrder R] [IsStrictOrderedRing R] {n : ℕ} {a : ℕ → ℕ → R} {drop : ℕ → R → R}

omit [LinearOrder R] [IsStrictOrderedRing R] in
theorem biconj_symm (hs : ∀ i j, i < n → j < n → a i j = a j i) (m : ℕ) (hm : m ≤ n) :
    ∀ j, j < n → (biconj n a drop m).W j = (biconj n a drop m).Z j := by
  induction m with
  | zero => intro j _; rfl
  | succ m ih =>
    intro j hj
    have ih := ih (by omega)
    funext c
    simp only [biconj, Biconj.step]
    have hl : (biconj n a drop m).l n a m j = (biconj n a drop m).u n a m j := by
      unfold Biconj.l Biconj.u
      refine sum_congr rfl fun k hk => ?_
      rw [hs j k hj (mem_range.1 hk), ih m (by omega)]
    rw [ih j hj, ih m (by omega), hl]

omit [LinearOrder R] [IsStrictOrderedRing R] in
theorem bil_dot (w z : ℕ → R) : bil n a w z = (fun i : Fin n => w i) ⬝ᵥ toMat n a *ᵥ fun i : Fin n => z i := by
  unfold bil
  rw [dotProduct, ← Fin.sum_univ_eq_sum_range (fun j => w j * ∑ k ∈ range n, a j k * z k)]
  refine Fintype.sum_congr _ _ fun j => ?_
  rw [mulVec, dotProduct, ← Fin.sum_univ_eq_sum_range (fun k => a j k * z k)]

/-- **C55 (no breakdown).** For a symmetric positive definite matrix every pivot is positive, whatever is dropped. -/
theorem biconj_piv_pos (hA : Spd (toMat n a)) (hd : ∀ i, drop i 0 = 0) {i : ℕ} (hi : i < n) :
    0 < (biconj n a drop i).piv n a i := by
  have hs : ∀ i j, i < n → j < n → a i j = a j i := fun i j h1 h2 =>
    (congrFun (congrFun hA.symm ⟨j, h2⟩) ⟨i, h1⟩)
  rw [Biconj.piv_eq, biconj_symm hs i hi.le i hi, bil_dot]
  refine hA.pos _ fun h => ?_
  have := congrFun h ⟨i, hi⟩
  simp [(biconj_tri hd i i).2.1] at this

/-- **C55 (positive definite).** For a symmetric positive definite matrix the SAINV preconditioner is symmetric positive
definite, whatever is dropped. -/
theorem sainvMat_spd (hA : Spd (toMat n a)) (hd : ∀ i, drop i 0 = 0) :
    Spd (sainvMat n (biconj n a drop n).W (biconj n a drop n).Z fun i => 1 / (biconj n a drop i).piv n a i) := by
  have hs : ∀ i j, i < n → j < n → a i j = a j i := fun i j h1 h2 =>
    (congrFun (congrFun hA.symm ⟨j, h2⟩) ⟨i, h1⟩)
  have hWZ : toMat n (biconj n a drop n).W = toMat n (biconj n a drop n).Z := by
    ext i j
    exact congrFun (biconj_symm hs n le_rfl i i.2) j
  unfold sainvMat
  rw [hWZ]
  obtain ⟨Z, hZ⟩ : ∃ Z, Z = toMat n (biconj n a drop n).Z := ⟨_, rfl⟩
  obtain ⟨d, hde⟩ : ∃ d : Fin n → R, d = fun i : Fin n => 1 / (biconj n a drop i).piv n a i := ⟨_, rfl⟩
  have hdp : ∀ i, 0 < d i := fun i => by rw [hde]; exact one_div_pos.2 (biconj_piv_pos hA hd i.2)
  rw [← hde, ← hZ]
  refine ⟨by rw [transpose_mul, transpose_mul, transpose_transpose, diagonal_transpose, Matrix.mul_assoc], fun x hx => ?_⟩
  have hZx : ∃ i, (Z *ᵥ x) i ≠ 0 := by
    by_contra hne
    push Not at hne
    apply hx
    have : ∀ m, ∀ i : Fin n, i.1 < m → x i = 0 := by
      intro m
      induction m with
      | zero => intro i hi; omega
      | succ m ih =>
        intro i hi
        have h1 := hne i
        rw [mulVec, dotProduct, Fintype.sum_eq_single i] at h1
        · rw [hZ] at h1
          simpa [toMat, (biconj_tri (n := n) (a := a) hd n i).2.1] using h1
        · intro j hj
          rcases Nat.lt_or_ge j i with h | h
          · rw [ih j (by omega), mul_zero]
          · rw [hZ]
            have hlt : i.1 < j.1 := lt_of_le_of_ne h fun he => hj (Fin.ext he.symm)
            simp [toMat, ((biconj_tri (n := n) (a := a) hd n i).2.2 j hlt).2]
    funext i
    exact this n i i.2
  obtain ⟨i, hi⟩ := hZx
  rw [← mulVec_mulVec, ← mulVec_mulVec, dotProduct_mulVec, vecMul_transpose, dotProduct]
  refine sum_pos' (fun j _ => ?_) ⟨i, mem_univ _, ?_⟩
  · rw [mulVec_diagonal]
    nlinarith [mul_self_nonneg ((Z *ᵥ x) j), hdp j, mul_nonneg (hdp j).le (mul_self_nonneg ((Z *ᵥ x) j))]
  · rw [mulVec_diagonal]
    have := mul_pos (hdp i) (mul_self_pos.2 hi)
    linarith

end spd

/-- **C55 with CG.** `lis_solve` with `-i cg -p sainv` on a symmetric positive definite matrix of order at least 10, any drop test
(any `-sainv_drop`), `maxiter ≥ n`, exact real arithmetic: the preconditioner is created, and CG returns `LIS_SUCCESS` within `n`
iterations with an `x` that meets the documented condition. -/
theorem cg_csr_sainv_spd (F : SvOps ℝ) (J : SvJunk ℝ) {A : Csr ℝ} (hA : A.WF) (hnp : A.np = A.n) (h10 : 10 ≤ A.n)
    (hS : Spd (toMat A.n A.entry)) {W0 Z0 : Arr (SvRow ℝ)} {D0 tmp tmp' : Arr ℝ} (hW : W0.size = A.n) (hZ : Z0.size = A.n)
    (hD : A.n ≤ D0.size) (ht1 : A.n ≤ tmp.size) (ht2 : A.n ≤ tmp'.size)
    {omp ompS : Option (OmpRun ℝ)} (ho : GoodRun A.n omp) (hoS : GoodRun A.n ompS)
    (o : Opts ℝ ℝ) (ht : 0 ≤ o.tol) (hw : o.conv = .nrm1B → o.tol ≤ o.tolW) (hmax : A.n ≤ o.maxiter) (junk : ℝ)
    {h : Vecs ℝ} (hg : h.Good A.n) {hist : Arr ℝ} (hsz : o.maxiter < hist.size)
    (hz : o.initZero → ∀ i, i < A.n → h.el hX i = 0) :
    Ok (do
      let f ← createSainv F J A W0 Z0 D0
      (lisCg junk o).exec (krylovKit (matvecCsr A) (matvechCsr A) (onArr (psolveSainv id id A.n f.W f.Z f.D tmp))
        (onArr (psolveSainv id id A.n f.Z f.W f.D tmp')) Real.sqrt abs omp ompS) ⟨h, hist⟩)
      fun r => r.1.ret = .success ∧ (r.1.iter ≤ A.n ∨ r.1.iter = 1) ∧
        CsrMeets A.n A.entry Real.sqrt abs o (h.el hB) (h.el hX) (r.2.h.el hX) := by
  rw [Ok_bind]
  refine (createSainv_spec F J hA hnp h10 hW hZ hD).mono ?_
  rintro f ⟨f1, f2, f3, f4, f5, f6⟩
  have hm : ∀ {V Y : Arr (SvRow ℝ)} {t : Arr ℝ}, SvGood A.n V → SvGood A.n Y → A.n ≤ t.size →
      MapsVec A.n (onArr (psolveSainv id id A.n V Y f.D t)) fun b =>
        sainvMat A.n (fun j c => (V.get j).coef c) (fun j c => (Y.get j).coef c) f.D.get *ᵥ b := by
    intro V Y t hV hY hts
    refine onArr_maps fun x y hx hy => ?_
    refine (psolveSainv_spec (conj := id) (conjD := id) (fun _ _ => rfl) rfl hV hY f3 hts hx hy).mono ?_
    rintro x' ⟨x1, x2⟩
    exact ⟨x1, fun i => sainvMat_mulVec (fun _ _ _ => rfl) (fun _ _ _ => rfl) (fun _ _ => rfl) x2 i⟩
  have hM := sainvMat_spd (drop := fun i => F.drop (A.svNrm F i)) hS fun i => F.drop_zero _
  refine (cg_array_spd hS (isMatvec_csr hA hnp) (isMatvech_csr hA hnp) (hm f1 f2 ht1) (hm f2 f1 ht2) hM (fun x => ?_)
    ho hoS o ht hw hmax junk hg hsz hz).mono fun _ q => ⟨q.1, q.2.1, q.2.2.1⟩
  have e : sainvMat A.n (fun j c => (f.W.get j).coef c) (fun j c => (f.Z.get j).coef c) f.D.get =
      sainvMat A.n (biconj A.n A.entry (fun i => F.drop (A.svNrm F i)) A.n).W
        (biconj A.n A.entry (fun i => F.drop (A.svNrm F i)) A.n).Z
        fun i => 1 / (biconj A.n A.entry (fun i => F.drop (A.svNrm F i)) i).piv A.n A.entry i := by
    have e1 : toMat A.n (fun j c => (f.Z.get j).coef c) =
        toMat A.n (biconj A.n A.entry (fun i => F.drop (A.svNrm F i)) A.n).Z := by
      ext i j
      exact f5 i i.2 j
    have e2 : toMat A.n (fun j c => (f.W.get j).coef c) =
        toMat A.n (biconj A.n A.entry (fun i => F.drop (A.svNrm F i)) A.n).W := by
      ext i j
      exact f4 i i.2 j
    have e3 : (fun i : Fin A.n => f.D.get i) = fun i : Fin A.n =>
        1 / (biconj A.n A.entry (fun i => F.drop (A.svNrm F i)) i).piv A.n A.entry i := by
      funext i
      exact f6 i i.2
    unfold sainvMat
    rw [e1, e2, e3]
  rw [e]

end Lis
