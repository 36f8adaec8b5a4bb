import Verif.Props.DiagBlock

/-!
# C66: splitting BSR matrices, the block Jacobi preconditioner
-/

namespace Lis
open Finset
variable {R : Type}

theorem Bsr.Square.lt {A : Bsr R} (h : A.Square) (hb : 0 < A.bnr) (hn : 0 < A.n) :
    0 < A.nr ∧ (A.nr - 1) * A.bnr < A.n ∧ A.n ≤ A.nr * A.bnr := by
  have h1 := Nat.div_add_mod (A.n + A.bnr - 1) A.bnr
  have h2 := Nat.mod_lt (A.n + A.bnr - 1) hb
  rw [← h.rows, Nat.mul_comm] at h1
  have h3 : 0 < A.nr := by
    rw [h.rows]
    exact Nat.div_pos (by omega) hb
  have h4 : (A.nr - 1) * A.bnr + A.bnr = A.nr * A.bnr := by
    obtain ⟨m, hm⟩ : ∃ m, A.nr = m + 1 := ⟨A.nr - 1, by omega⟩
    rw [hm, Nat.add_sub_cancel, Nat.add_mul, Nat.one_mul]
  exact ⟨h3, by omega, by omega⟩

/-- the block diagonal of a split BSR matrix is that of the matrix -/
theorem diagPart_eq [AddCommMonoid R] {A : Bsr R} (hsq : A.bnr = A.bnc) {D : Arr R} {I : ℕ}
    (h1 : A.DiagOnce I) (hD : ∀ b0, A.bptr.get I ≤ b0 → b0 < A.bptr.get (I + 1) → A.bindex.get b0 = I →
        (∀ bc, b0 < bc → bc < A.bptr.get (I + 1) → A.bindex.get bc ≠ I) →
        ∀ q, q < A.bnr * A.bnc → D.get (A.bnr * A.bnc * I + q) = A.value.get (A.bnr * A.bnc * b0 + q))
    {i j : ℕ} (hb : 0 < A.bnr) (hi : i / A.bnr = I) (hj : j / A.bnr = I) :
    D.get (I * (A.bnr * A.bnr) + j % A.bnr * A.bnr + i % A.bnr) = A.entry i j := by
  obtain ⟨b0, c1, c2, c3, c4⟩ := h1
  have hq : j % A.bnr * A.bnr + i % A.bnr < A.bnr * A.bnc := by
    rw [← hsq]; exact blk_le (Nat.mod_lt _ hb) (Nat.mod_lt _ hb)
  have := hD b0 c1 c2 c3 (fun bc d1 d2 d3 => by have := c4 bc (by omega) d2 d3; omega) _ hq
  unfold Bsr.entry
  rw [← hsq, hi, hj, sum_eq_single b0, if_pos c3]
  · rw [← hsq] at this
    rw [Nat.add_assoc, Nat.mul_comm I, this, Nat.add_assoc, Nat.mul_comm b0]
  · intro bc hbc hne
    rw [mem_Ico] at hbc
    rw [if_neg fun hh => hne (c4 bc hbc.1 hbc.2 hh)]
  · intro hh
    rw [mem_Ico] at hh
    omega

/-- **C66 (split).** `lis_matrix_split` on BSR: `L` holds the blocks below the diagonal, `U` those above, and
`L + D + U` is the matrix. -/
theorem splitBsr_spec [AddCommMonoid R] (junk : ℕ → ℕ → ℕ) (vjunk : ℕ → ℕ → R) (djunk : ℕ → R) {A : Bsr R} (h : A.WF)
    (hs : A.Square) (hd : ∀ I, I < A.nr → A.DiagOnce I) :
    Ok (splitBsr junk vjunk djunk A) fun S => S.WF ∧ S.n = A.n ∧ S.nr = A.nr ∧ S.b = A.bnr ∧
      (∀ i j, i < A.nr * A.bnr → i / A.bnr ≤ j / A.bnr → S.L.entry i j = 0) ∧
      (∀ i j, i < A.nr * A.bnr → j / A.bnr ≤ i / A.bnr → S.U.entry i j = 0) ∧
      (∀ i j, i < A.nr * A.bnr → blockDiag A.bnr S.D i j = A.diagPart i j) ∧
      ∀ i j, i < A.nr * A.bnr → S.entry i j = A.entry i j := by
  refine (splitBsr_parts junk vjunk djunk h hs.blk hs.num).mono ?_
  rintro S ⟨a1, a2, a3, a4, a5, a6, a7, -, a9⟩
  have key : ∀ i j, i < A.nr * A.bnr → blockDiag A.bnr S.D i j = A.diagPart i j := by
    intro i j hi
    unfold blockDiag Bsr.diagPart
    split
    · next e =>
      exact diagPart_eq hs.blk (hd _ (div_lt_of hi)) (a9 _ (div_lt_of hi)) h.hbr rfl e.symm
    · rfl
  refine ⟨a1, a2, a3, a4, fun i j hi hij => by rw [a6 i j hi, if_neg (by omega)],
    fun i j hi hij => by rw [a7 i j hi, if_neg (by omega)], key, fun i j hi => ?_⟩
  unfold SplitBsr.entry
  rw [a4, key i j hi, a6 i j hi, a7 i j hi, Bsr.diagPart]
  rcases Nat.lt_trichotomy (i / A.bnr) (j / A.bnr) with e | e | e
  · rw [if_neg (by omega), if_neg (by omega), if_pos e, zero_add, zero_add]
  · rw [if_pos e, if_neg (by omega), if_neg (by omega), add_zero, add_zero]
  · rw [if_neg (by omega), if_pos e, if_neg (by omega), add_zero, zero_add]

/-- **C66 (split, exception).** If a block row stores no diagonal block (legal: the block is zero), the diagonal block of
the split matrix is what the fresh memory held. -/
theorem splitBsr_missing_diagonal [AddCommMonoid R] (junk : ℕ → ℕ → ℕ) (vjunk : ℕ → ℕ → R) (djunk : ℕ → R) {A : Bsr R}
    (h : A.WF) (hs : A.Square) {i : ℕ} (hi : i < A.nr * A.bnr) (hno : A.NoDiag (i / A.bnr)) :
    Ok (splitBsr junk vjunk djunk A) fun S => A.entry i i = 0 ∧
      S.entry i i = djunk (A.bnr * A.bnr * (i / A.bnr) + (i % A.bnr * A.bnr + i % A.bnr)) := by
  refine (splitBsr_parts junk vjunk djunk h hs.blk hs.num).mono ?_
  rintro S ⟨a1, a2, a3, a4, a5, a6, a7, a8, -⟩
  constructor
  · unfold Bsr.entry
    refine sum_eq_zero fun bc hbc => ?_
    rw [mem_Ico] at hbc
    rw [← hs.blk, if_neg (hno bc hbc.1 hbc.2)]
  · unfold SplitBsr.entry
    have hq : i % A.bnr * A.bnr + i % A.bnr < A.bnr * A.bnc := by
      rw [← hs.blk]; exact blk_le (Nat.mod_lt _ h.hbr) (Nat.mod_lt _ h.hbr)
    have := a8 _ (div_lt_of hi) hno _ hq
    rw [a4, a6 i i hi, a7 i i hi, if_neg (lt_irrefl _), add_zero, add_zero, blockDiag, if_pos rfl,
      Nat.add_assoc, Nat.mul_comm (i / A.bnr)]
    rw [← hs.blk] at this
    exact this

section
variable [Field R]

/-- inverting the block diagonal scaled by `w`: positions beyond `n` count as identity -/
theorem invertPart_spec (gjunk : ℕ → ℕ → R) {w : R} (hw : w ≠ 0) {A : Bsr R}
    (h : A.WF) (hs : A.Square) (hp : A.Padded) (hn : 0 < A.n) (hm : A.BlockMinors) {D : Arr R}
    (hdsz : A.nr * (A.bnr * A.bnr) ≤ D.size)
    (hget : ∀ I, I < A.nr → ∀ r c, r < A.bnr → c < A.bnr →
      D.get (I * (A.bnr * A.bnr) + c * A.bnr + r) = w * A.entry (I * A.bnr + r) (I * A.bnr + c)) :
    Ok (diagInverse gjunk A.n A.bnr A.nr D) fun wd => wd.size = D.size ∧
      BlockInv A.bnr A.nr (padOne A.n A.bnr A.nr D) wd ∧
      ∀ i k, i < A.nr * A.bnr → blockDiag A.bnr (padOne A.n A.bnr A.nr D) i k =
        if i < A.n then w * A.diagPart i k else if i = k then 1 else 0 := by
  have hb := h.hbr
  obtain ⟨hnr, hlt, hle⟩ := hs.lt hb hn
  -- entries of padding rows and columns vanish
  have hzero : ∀ I, I < A.nr → ∀ r c, r < A.bnr → c < A.bnr → (A.n ≤ I * A.bnr + r ∨ A.n ≤ I * A.bnr + c) →
      A.entry (I * A.bnr + r) (I * A.bnr + c) = 0 := by
    intro I hI r c hr hc ho
    unfold Bsr.entry
    refine sum_eq_zero fun bc hbc => ?_
    rw [mul_add_div' hr, mem_Ico] at hbc
    split
    · next e =>
      rw [← hs.blk, mul_add_div' hc] at e
      rw [← hs.blk, mul_add_mod'' hr, mul_add_mod'' hc]
      have := hp.zero I hI bc hbc.1 hbc.2 r c hr (by rw [← hs.blk]; exact hc) (by rw [e, ← hs.blk]; exact ho)
      rwa [← hs.blk] at this
    · rfl
  -- size of the part of a block inside the matrix
  have hmod : A.n % A.bnr = if A.n = A.nr * A.bnr then 0 else A.n - (A.nr - 1) * A.bnr := by
    split
    · next e => rw [e, Nat.mul_mod_left]
    · next e =>
      have h4 : (A.nr - 1) * A.bnr + A.bnr = A.nr * A.bnr := by
        obtain ⟨m, hm⟩ : ∃ m, A.nr = m + 1 := ⟨A.nr - 1, by omega⟩
        rw [hm, Nat.add_sub_cancel, Nat.add_mul, Nat.one_mul]
      have h5 : A.n = (A.nr - 1) * A.bnr + (A.n - (A.nr - 1) * A.bnr) := by omega
      conv_lhs => rw [h5]
      exact mul_add_mod'' (by omega)
  have hlast : (A.nr - 1) * A.bnr + A.bnr = A.nr * A.bnr := by
    obtain ⟨m, hm⟩ : ∃ m, A.nr = m + 1 := ⟨A.nr - 1, by omega⟩
    rw [hm, Nat.add_sub_cancel, Nat.add_mul, Nat.one_mul]
  have hin : ∀ I, I < A.nr → ∀ r, r < A.bnr → (A.n ≤ I * A.bnr + r ↔ (A.bnr ≠ 1 ∧ A.n % A.bnr ≠ 0 ∧ I = A.nr - 1 ∧ A.n % A.bnr ≤ r)) := by
    intro I hI r hr
    by_cases e : A.n = A.nr * A.bnr
    · rw [if_pos e] at hmod
      have := blk_le hI hr
      constructor
      · intro hh; omega
      · rintro ⟨-, hh, -⟩; exact absurd hmod hh
    · rw [if_neg e] at hmod
      constructor
      · intro hh
        have hI' : I = A.nr - 1 := by
          by_contra hne
          have := Nat.mul_le_mul_right A.bnr (show I + 1 ≤ A.nr - 1 by omega)
          rw [Nat.add_mul, Nat.one_mul] at this
          omega
        subst hI'
        exact ⟨fun h1 => by rw [h1] at hlast hlt hle e hr; omega, by omega, rfl, by omega⟩
      · rintro ⟨-, -, rfl, hh⟩
        omega
  have hpad : ∀ I, I < A.nr → ∀ r c, r < A.bnr → c < A.bnr →
      (padOne A.n A.bnr A.nr D).get (I * (A.bnr * A.bnr) + c * A.bnr + r) =
        if I * A.bnr + r < A.n then w * A.entry (I * A.bnr + r) (I * A.bnr + c) else if r = c then 1 else 0 := by
    classical
    intro I hI r c hr hc
    have hrc := blk_le hc hr
    have hpos : ∀ i, i < A.bnr → (I * (A.bnr * A.bnr) + c * A.bnr + r = A.bnr * A.bnr * (A.nr - 1) + i * (A.bnr + 1) ↔
        I = A.nr - 1 ∧ c = i ∧ r = i) := by
      intro i hi
      have hii := blk_le hi hi
      constructor
      · intro e
        rw [Nat.mul_add, Nat.mul_one, Nat.mul_comm (A.bnr * A.bnr)] at e
        have e1 : (I * (A.bnr * A.bnr) + (c * A.bnr + r)) / (A.bnr * A.bnr) = I := mul_add_div' hrc
        have e2 : ((A.nr - 1) * (A.bnr * A.bnr) + (i * A.bnr + i)) / (A.bnr * A.bnr) = A.nr - 1 := mul_add_div' hii
        rw [← Nat.add_assoc, e, e2] at e1
        have e3 : c * A.bnr + r = i * A.bnr + i := by rw [← e1] at e; omega
        have e4 : (c * A.bnr + r) / A.bnr = c := mul_add_div' hr
        have e5 : (c * A.bnr + r) % A.bnr = r := mul_add_mod'' hr
        rw [e3, mul_add_div' hi] at e4
        rw [e3, mul_add_mod'' hi] at e5
        exact ⟨e1.symm, e4.symm, e5.symm⟩
      · rintro ⟨rfl, rfl, rfl⟩
        rw [Nat.mul_add, Nat.mul_one, Nat.mul_comm (A.bnr * A.bnr)]; omega
    unfold padOne
    simp only
    rw [hget I hI r c hr hc]
    by_cases ho : I * A.bnr + r < A.n
    · rw [if_pos ho, if_neg]
      rintro ⟨h1, h2, i, h3, h4, h5⟩
      obtain ⟨e1, e2, e3⟩ := (hpos i h4).1 h5
      have := (hin I hI r hr).2 ⟨h1, h2, e1, by omega⟩
      omega
    · rw [if_neg ho]
      obtain ⟨h1, h2, h3, h4⟩ := (hin I hI r hr).1 (by omega)
      by_cases e : r = c
      · rw [if_pos e, if_pos]
        exact ⟨h1, h2, r, h4, hr, (hpos r hr).2 ⟨h3, e.symm, rfl⟩⟩
      · rw [if_neg e, if_neg, hzero I hI r c hr hc (Or.inl (by omega)), mul_zero]
        rintro ⟨-, -, i, h5, h6, h7⟩
        obtain ⟨e1, e2, e3⟩ := (hpos i h6).1 h7
        omega
  have hmin : ∀ I, I < A.nr → LeadingMinors A.bnr ((padOne A.n A.bnr A.nr D).ptrAt (I * (A.bnr * A.bnr))) := by
    intro I hI
    have hIb := Nat.mul_le_mul_right A.bnr (show I ≤ A.nr - 1 by omega)
    refine minors_extend (m := min A.bnr (A.n - I * A.bnr)) (Nat.min_le_left _ _) (fun k hk => ?_) fun k k1 k2 j hj => ?_
    · have h1 := hm I hI k (by omega) (by omega)
      have := mul_ne_zero (pow_ne_zero (Fintype.card (Fin k)) hw) h1
      rw [← Matrix.det_smul] at this
      convert this using 2
      ext a b
      have ha := a.2
      have hb' := b.2
      have := hpad I hI a b (by omega) (by omega)
      rw [if_pos (by omega)] at this
      simp only [Arr.mat, Arr.ptrAt, Matrix.smul_apply, Matrix.of_apply, smul_eq_mul]
      rw [← this]
      congr 1; omega
    · have := hpad I hI k j k2 hj
      rw [if_neg (by omega)] at this
      simp only [Arr.ptrAt]
      rw [show I * (A.bnr * A.bnr) + (k + j * A.bnr) = I * (A.bnr * A.bnr) + j * A.bnr + k by omega, this]
      exact if_congr eq_comm rfl rfl
  refine (diagInverse_spec gjunk hb hnr hdsz hmin).mono ?_
  rintro wd ⟨w1, w2⟩
  refine ⟨w1, w2, ?_⟩
  · intro i k hi
    have hi' : i / A.bnr * A.bnr + i % A.bnr = i := by rw [Nat.mul_comm]; exact Nat.div_add_mod _ _
    have hk' : k / A.bnr * A.bnr + k % A.bnr = k := by rw [Nat.mul_comm]; exact Nat.div_add_mod _ _
    have := hpad (i / A.bnr) (div_lt_of hi) (i % A.bnr) (k % A.bnr) (Nat.mod_lt _ hb) (Nat.mod_lt _ hb)
    unfold blockDiag Bsr.diagPart
    by_cases e : i / A.bnr = k / A.bnr
    · rw [if_pos e, if_pos e, this, hi', e, hk']
      refine if_congr Iff.rfl rfl (if_congr ⟨fun h => ?_, fun h => by rw [h]⟩ rfl rfl)
      rw [← hi', ← hk', e, h]
    · rw [if_neg e, if_neg e]
      have hne : i ≠ k := fun h => e (by rw [h])
      rw [if_neg hne]
      split
      · exact (mul_zero _).symm
      · rfl

/-- **C66 (create).** What `lis_precon_create_bjacobi` leaves in `precon->WD`: the inverse of the block diagonal, with
the positions beyond `n` filled up to the identity. -/
theorem createBjacobi_spec (junk : ℕ → ℕ → ℕ) (vjunk : ℕ → ℕ → R) (djunk wjunk : ℕ → R) (gjunk : ℕ → ℕ → R) {A : Bsr R}
    (h : A.WF) (hs : A.Square) (hp : A.Padded) (hn : 0 < A.n) (hd : ∀ I, I < A.nr → A.DiagOnce I) (hm : A.BlockMinors) :
    Ok (createBjacobi junk vjunk djunk wjunk gjunk A) fun wd => A.nr * (A.bnr * A.bnr) ≤ wd.size ∧
      ∀ i j, i < A.nr * A.bnr → j < A.nr * A.bnr →
        (∑ k ∈ range (A.nr * A.bnr), (if i < A.n then A.diagPart i k else if i = k then 1 else 0) *
          blockDiag A.bnr wd k j) = (if i = j then 1 else 0) ∧
        (∑ k ∈ range (A.nr * A.bnr), blockDiag A.bnr wd i k *
          (if k < A.n then A.diagPart k j else if k = j then 1 else 0)) = if i = j then 1 else 0 := by
  have hb := h.hbr
  obtain ⟨hnr, hlt, hle⟩ := hs.lt hb hn
  unfold createBjacobi
  rw [Ok_bind]
  refine (splitBsr_parts junk vjunk djunk h hs.blk hs.num).mono ?_
  rintro S ⟨a1, a2, a3, a4, a5, -, -, -, a9⟩
  rw [Ok_bind, a2, a3, a4]
  refine (diagCopy_spec (by rw [a5, hs.blk]) (by rw [Arr.malloc_size, Nat.mul_comm])).mono ?_
  rintro D ⟨d1, d2, -⟩
  rw [Arr.malloc_size] at d1
  -- elements of the copied block diagonal
  have hget : ∀ I, I < A.nr → ∀ r c, r < A.bnr → c < A.bnr →
      D.get (I * (A.bnr * A.bnr) + c * A.bnr + r) = A.entry (I * A.bnr + r) (I * A.bnr + c) := by
    intro I hI r c hr hc
    have h1 : I * (A.bnr * A.bnr) + c * A.bnr + r < A.nr * (A.bnr * A.bnr) := by
      have h2 := blk_le hc hr
      have := blk_le hI h2
      omega
    rw [d2 _ h1]
    have := diagPart_eq (D := S.D) hs.blk (hd I hI) (a9 I hI) (i := I * A.bnr + r) (j := I * A.bnr + c) hb
      (mul_add_div' hr) (mul_add_div' hc)
    rwa [mul_add_mod'' hr, mul_add_mod'' hc] at this
  refine (invertPart_spec gjunk one_ne_zero h hs hp hn hm (by rw [d1, Nat.mul_comm]) fun I hI r c hr hc => by
    rw [hget I hI r c hr hc, one_mul]).mono ?_
  rintro wd ⟨w1, w2, hentry⟩
  simp only [one_mul] at hentry
  refine ⟨by rw [w1, d1, Nat.mul_comm], fun i j hi hj => ?_⟩
  have := w2.diag hi hj
  refine ⟨Eq.trans (sum_congr rfl fun k hk => ?_) this.1, Eq.trans (sum_congr rfl fun k hk => ?_) this.2⟩
  · rw [hentry i k hi]
  · rw [hentry k j (mem_range.1 hk)]

/-- the block diagonal, cut at `n` -/
theorem diagPart_pad {A : Bsr R} (h : A.WF) (hs : A.Square) (hp : A.Padded) (hn : 0 < A.n) {i j : ℕ} (hi : i < A.nr * A.bnr)
    (hj : A.n ≤ j) : A.diagPart i j = 0 := by
  unfold Bsr.diagPart
  split
  · next e =>
    unfold Bsr.entry
    refine sum_eq_zero fun bc hbc => ?_
    rw [mem_Ico] at hbc
    split
    · next e' =>
      have hj' : j / A.bnc * A.bnc + j % A.bnc = j := by rw [Nat.mul_comm]; exact Nat.div_add_mod _ _
      exact hp.zero _ (div_lt_of hi) bc hbc.1 hbc.2 _ _ (Nat.mod_lt _ h.hbr) (Nat.mod_lt _ h.hbc)
        (Or.inr (by rw [e']; omega))
    · rfl
  · rfl

end

section
variable [Field R] [StarRing R]

/-- **C66 (apply).** `lis_psolve` with block Jacobi solves `D x = b` for the block diagonal `D` of the matrix, and
`lis_psolveh` solves `Dᴴ x = b`; what the vectors hold beyond row `n` does not matter. -/
theorem bjacobi_spec (junk : ℕ → ℕ → ℕ) (vjunk : ℕ → ℕ → R) (djunk wjunk : ℕ → R) (gjunk : ℕ → ℕ → R) {A : Bsr R}
    (h : A.WF) (hs : A.Square) (hp : A.Padded) (hn : 0 < A.n) (hd : ∀ I, I < A.nr → A.DiagOnce I) (hm : A.BlockMinors) :
    Ok (createBjacobi junk vjunk djunk wjunk gjunk A) fun wd => ∀ (b x : ℕ) (v : Vecs R),
      A.nr * A.bnr ≤ (v b).value.size → A.nr * A.bnr ≤ (v x).value.size →
      (Ok (psolveBjacobi A.bnr A.nr wd b x v) fun v' =>
        IsMul A.n A.n A.diagPart (v' x).value.get (v b).value.get ∧ (v' x).n = (v x).n ∧
        SameFrom (A.nr * A.bnr) (v x).value.get (v' x).value.get ∧ ∀ w, w ≠ x → v' w = v w) ∧
      (Ok (psolvehBjacobi star A.bnr A.nr wd b x v) fun v' =>
        IsMulH A.n A.n A.diagPart (v' x).value.get (v b).value.get ∧ (v' x).n = (v x).n ∧
        SameFrom (A.nr * A.bnr) (v x).value.get (v' x).value.get ∧ ∀ w, w ≠ x → v' w = v w) := by
  obtain ⟨hnr, hlt, hle⟩ := hs.lt h.hbr hn
  refine (createBjacobi_spec junk vjunk djunk wjunk gjunk h hs hp hn hd hm).mono ?_
  rintro wd ⟨w1, w2⟩ b x v hb hx
  have hcut : ∀ (f : ℕ → R) i, i < A.n → (∑ j ∈ range (A.nr * A.bnr), (if i < A.n then A.diagPart i j else
      if i = j then 1 else 0) * f j) = ∑ j ∈ range A.n, A.diagPart i j * f j := by
    intro f i hi
    rw [← sum_subset (range_subset_range.2 hle)]
    · exact sum_congr rfl fun j _ => by rw [if_pos hi]
    · intro j hj hj'
      rw [mem_range] at hj hj'
      rw [if_pos hi, diagPart_pad h hs hp hn (by omega) (by omega), zero_mul]
  constructor
  · unfold psolveBjacobi onArr
    rw [Ok_bind]
    refine (diagMatvec_spec h.hbr w1 hb hx).mono ?_
    rintro y ⟨-, y2, y3⟩
    rw [Ok_pure]
    simp only [if_true]
    refine ⟨fun i hi => ?_, trivial, y3, fun w hw => if_neg hw⟩
    rw [← hcut _ i hi]
    have e : ∀ j ∈ range (A.nr * A.bnr), (if i < A.n then A.diagPart i j else if i = j then 1 else 0) * y.get j =
        ∑ k ∈ range (A.nr * A.bnr), (if i < A.n then A.diagPart i j else if i = j then 1 else 0) *
          blockDiag A.bnr wd j k * (v b).value.get k := by
      intro j hj
      rw [y2 j (mem_range.1 hj), mul_sum]
      exact sum_congr rfl fun k _ => by rw [mul_assoc]
    rw [sum_congr rfl e, sum_comm]
    have e2 : ∀ k ∈ range (A.nr * A.bnr), (∑ j ∈ range (A.nr * A.bnr),
        (if i < A.n then A.diagPart i j else if i = j then 1 else 0) * blockDiag A.bnr wd j k * (v b).value.get k) =
        if i = k then (v b).value.get k else 0 := by
      intro k hk
      rw [← sum_mul, (w2 i k (by omega) (mem_range.1 hk)).1, ite_mul, one_mul, zero_mul]
    rw [sum_congr rfl e2, sum_ite_eq, if_pos (mem_range.2 (by omega))]
  · unfold psolvehBjacobi onArr
    rw [Ok_bind]
    refine (diagMatvech_spec h.hbr w1 hb hx).mono ?_
    rintro y ⟨-, y2, y3⟩
    rw [Ok_pure]
    simp only [if_true]
    refine ⟨fun j hj => ?_, trivial, y3, fun w hw => if_neg hw⟩
    have e0 : ∑ i ∈ range A.n, star (A.diagPart i j) * y.get i = ∑ i ∈ range (A.nr * A.bnr),
        star (if i < A.n then A.diagPart i j else if i = j then 1 else 0) * y.get i := by
      rw [← sum_subset (range_subset_range.2 hle)]
      · exact sum_congr rfl fun i hi => by rw [if_pos (mem_range.1 hi)]
      · intro i hi hi'
        rw [mem_range] at hi hi'
        rw [if_neg hi', if_neg (by omega), star_zero, zero_mul]
    rw [e0]
    have e : ∀ i ∈ range (A.nr * A.bnr), star (if i < A.n then A.diagPart i j else if i = j then 1 else 0) * y.get i =
        ∑ k ∈ range (A.nr * A.bnr), star (blockDiag A.bnr wd k i *
          (if i < A.n then A.diagPart i j else if i = j then 1 else 0)) * (v b).value.get k := by
      intro i hi
      rw [y2 i (mem_range.1 hi), mul_sum]
      refine sum_congr rfl fun k _ => ?_
      rw [star_mul, mul_assoc]
    rw [sum_congr rfl e, sum_comm]
    have e2 : ∀ k ∈ range (A.nr * A.bnr), (∑ i ∈ range (A.nr * A.bnr), star (blockDiag A.bnr wd k i *
          (if i < A.n then A.diagPart i j else if i = j then 1 else 0)) * (v b).value.get k) =
        if k = j then (v b).value.get k else 0 := by
      intro k hk
      rw [← sum_mul, ← star_sum, (w2 k j (mem_range.1 hk) (by omega)).2]
      split <;> simp
    rw [sum_congr rfl e2, sum_ite_eq', if_pos (mem_range.2 (by omega))]

end
end Lis
