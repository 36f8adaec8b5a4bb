import Verif.Model.MatOps
import Verif.Props.Convert
import Mathlib.Algebra.Ring.Basic

/-
C63: linear combinations of matrices and the shift by a matrix.
-/
namespace Lis
variable {R : Type}

theorem idx_eq_iff {n i i' j j' : ℕ} (hi : i < n) (hi' : i' < n) : j * n + i = j' * n + i' ↔ j = j' ∧ i = i' := by
  constructor
  · intro h
    have h1 : (j * n + i) / n = j := by
      rw [Nat.mul_comm, Nat.mul_add_div (by omega), Nat.div_eq_of_lt hi, Nat.add_zero]
    have h2 : (j' * n + i') / n = j' := by
      rw [Nat.mul_comm, Nat.mul_add_div (by omega), Nat.div_eq_of_lt hi', Nat.add_zero]
    have h3 : j = j' := by rw [← h1, h, h2]
    subst h3
    exact ⟨rfl, by omega⟩
  · rintro ⟨rfl, rfl⟩; rfl

theorem idx_lt {n np i j : ℕ} (hi : i < n) (hj : j < np) : j * n + i < np * n := by
  calc j * n + i < j * n + n := by omega
    _ = (j + 1) * n := by rw [Nat.add_mul, Nat.one_mul]
    _ ≤ np * n := Nat.mul_le_mul_right n hj

theorem dnsUpd_spec (f : R → R → R) {n np : ℕ} {a b : Arr R} (ha : np * n ≤ a.size) (hb : np * n ≤ b.size) :
    Ok (dnsUpd f n np a b) fun c => c.size = b.size ∧
      ∀ i j, i < n → j < np → c.get (j * n + i) = f (a.get (j * n + i)) (b.get (j * n + i)) := by
  unfold dnsUpd
  refine Ok_loop_le (fun q (c : Arr R) => c.size = b.size ∧ ∀ i j, i < n → j < np → c.get (j * n + i) =
    if j < q then f (a.get (j * n + i)) (b.get (j * n + i)) else b.get (j * n + i)) (Nat.zero_le _)
    ⟨rfl, fun i j _ _ => by rw [if_neg (by omega)]⟩ ?_ ?_
  · rintro q c _ hq ⟨h1, h2⟩
    refine Ok_loop_le (fun p (c : Arr R) => c.size = b.size ∧ ∀ i j, i < n → j < np → c.get (j * n + i) =
      if j < q ∨ (j = q ∧ i < p) then f (a.get (j * n + i)) (b.get (j * n + i)) else b.get (j * n + i)) (Nat.zero_le _)
      ⟨h1, fun i j hi hj => by
        rw [h2 i j hi hj]
        by_cases h : j < q
        · rw [if_pos h, if_pos (.inl h)]
        · rw [if_neg h, if_neg (by omega)]⟩ ?_ ?_
    · rintro p c _ hp ⟨h3, h4⟩
      have hlt := idx_lt hp hq
      simp only [Ok_bind, Ok_rd, Ok_wr, Arr.set_size]
      refine ⟨by omega, by omega, by omega, h3, fun i j hi hj => ?_⟩
      rw [Arr.set_get]
      by_cases he : j = q ∧ i = p
      · obtain ⟨rfl, rfl⟩ := he
        rw [if_pos rfl, h4 _ _ hi hj, if_neg (by omega), if_pos (by omega)]
      · rw [if_neg (fun h => he (((idx_eq_iff hi hp).1 h))), h4 i j hi hj]
        by_cases h : j < q ∨ (j = q ∧ i < p)
        · rw [if_pos h, if_pos (by omega)]
        · rw [if_neg h, if_neg (by omega)]
    · rintro c ⟨h3, h4⟩
      refine ⟨h3, fun i j hi hj => ?_⟩
      rw [h4 i j hi hj]
      by_cases h : j < q + 1
      · rw [if_pos h, if_pos (by omega)]
      · rw [if_neg h, if_neg (by omega)]
  · rintro c ⟨h1, h2⟩
    exact ⟨h1, fun i j hi hj => by rw [h2 i j hi hj, if_pos hj]⟩

theorem dnsZip_spec (f : R → R → R) {n np : ℕ} {a b c0 : Arr R} (ha : np * n ≤ a.size) (hb : np * n ≤ b.size)
    (hc : np * n ≤ c0.size) :
    Ok (dnsZip f n np a b c0) fun c => c.size = c0.size ∧
      ∀ i j, i < n → j < np → c.get (j * n + i) = f (a.get (j * n + i)) (b.get (j * n + i)) := by
  unfold dnsZip
  refine Ok_loop_le (fun q (c : Arr R) => c.size = c0.size ∧ ∀ i j, i < n → j < np → j < q →
    c.get (j * n + i) = f (a.get (j * n + i)) (b.get (j * n + i))) (Nat.zero_le _)
    ⟨rfl, fun i j _ _ h => absurd h (by omega)⟩ ?_ ?_
  · rintro q c _ hq ⟨h1, h2⟩
    refine Ok_loop_le (fun p (c : Arr R) => c.size = c0.size ∧ ∀ i j, i < n → j < np → (j < q ∨ (j = q ∧ i < p)) →
      c.get (j * n + i) = f (a.get (j * n + i)) (b.get (j * n + i))) (Nat.zero_le _)
      ⟨h1, fun i j hi hj h => h2 i j hi hj (by omega)⟩ ?_ ?_
    · rintro p c _ hp ⟨h3, h4⟩
      have hlt := idx_lt hp hq
      simp only [Ok_bind, Ok_rd, Ok_wr, Arr.set_size]
      refine ⟨by omega, by omega, by omega, h3, fun i j hi hj h => ?_⟩
      rw [Arr.set_get]
      by_cases he : j = q ∧ i = p
      · obtain ⟨rfl, rfl⟩ := he
        rw [if_pos rfl]
      · rw [if_neg (fun h => he (((idx_eq_iff hi hp).1 h)))]
        exact h4 i j hi hj (by omega)
    · rintro c ⟨h3, h4⟩
      exact ⟨h3, fun i j hi hj h => h4 i j hi hj (by omega)⟩
  · rintro c ⟨h1, h2⟩
    exact ⟨h1, fun i j hi hj => h2 i j hi hj hj⟩

/-- a dense matrix, with its diagonal in `D` when it is split -/
def SMat.Dense (A : SMat R) (A' : Dns R) : Prop :=
  A.M = .dns A' ∧ A'.WF ∧ A'.np = A'.n ∧
    ∀ d, A.D = some d → A'.n ≤ d.size ∧ ∀ i, i < A'.n → d.get i = A'.entry i i

theorem diagUpd_spec (f : R → R → R) {n : ℕ} {a b : Arr R} (ha : n ≤ a.size) (hb : n ≤ b.size) :
    Ok (diagUpd f n (some a) (some b)) fun r => ∃ c, r = some c ∧ c.size = b.size ∧
      ∀ i, i < n → c.get i = f (a.get i) (b.get i) := by
  unfold diagUpd
  simp only
  have : Ok (loop 0 n b fun i (b : Arr R) => do
      let x ← a.rd i
      let y ← b.rd i
      b.wr i (f x y)) fun c => c.size = b.size ∧ ∀ i, i < n → c.get i = f (a.get i) (b.get i) := by
    refine Ok_loop_le (fun q (c : Arr R) => c.size = b.size ∧ ∀ i, i < n → c.get i =
      if i < q then f (a.get i) (b.get i) else b.get i) (Nat.zero_le _)
      ⟨rfl, fun i _ => by rw [if_neg (by omega)]⟩ ?_ ?_
    · rintro q c _ hq ⟨h1, h2⟩
      simp only [Ok_bind, Ok_rd, Ok_wr, Arr.set_size]
      refine ⟨by omega, by omega, by omega, h1, fun i hi => ?_⟩
      rw [Arr.set_get]
      by_cases he : i = q
      · subst he; rw [if_pos rfl, h2 i hi, if_neg (by omega), if_pos (by omega)]
      · rw [if_neg he, h2 i hi]
        by_cases h : i < q
        · rw [if_pos h, if_pos (by omega)]
        · rw [if_neg h, if_neg (by omega)]
    · rintro c ⟨h1, h2⟩
      exact ⟨h1, fun i hi => by rw [h2 i hi, if_pos hi]⟩
  obtain ⟨c, e, h1, h2⟩ := this
  rw [e]
  exact ⟨_, rfl, c, rfl, h1, h2⟩

theorem matrixUpd_spec (f : R → R → R) {A B : SMat R} {A' B' : Dns R} (hA : A.Dense A') (hB : B.Dense B')
    (hn : B'.n = A'.n) (hs : A.D.isSome = B.D.isSome) :
    Ok (matrixUpd f A B) fun r => r.1 = .success ∧ ∃ C, r.2.Dense C ∧ C.n = B'.n ∧
      r.2.D.isSome = B.D.isSome ∧
      ∀ i j, i < B'.n → j < B'.n → C.entry i j = f (A'.entry i j) (B'.entry i j) := by
  obtain ⟨a1, a2, a3, a4⟩ := hA
  obtain ⟨b1, b2, b3, b4⟩ := hB
  have hva := a2.vsz
  have hvb := b2.vsz
  unfold matrixUpd
  simp only [a1, b1, AnyMat.value, Ok_bind]
  rw [b3, hn] at hvb
  rw [a3] at hva
  rw [a3]
  refine (dnsUpd_spec f hva hvb).mono ?_
  rintro c ⟨c1, c2⟩
  have key : ∀ D : Option (Arr R), (∀ d, D = some d → B'.n ≤ d.size ∧ ∀ i, i < B'.n → d.get i = f (A'.entry i i) (B'.entry i i)) →
      D.isSome = B.D.isSome →
      ∃ C, (⟨AnyMat.setValue c (.dns B'), D⟩ : SMat R).Dense C ∧ C.n = B'.n ∧ D.isSome = B.D.isSome ∧
        ∀ i j, i < B'.n → j < B'.n → C.entry i j = f (A'.entry i j) (B'.entry i j) := by
    intro D hD hDs
    have hent : ∀ i j, i < B'.n → j < B'.n → ({ B' with value := c } : Dns R).entry i j = f (A'.entry i j) (B'.entry i j) := by
      intro i j hi hj
      unfold Dns.entry
      simp only
      rw [hn] at hi hj ⊢
      exact c2 i j hi hj
    refine ⟨{ B' with value := c }, ⟨rfl, ⟨by simp only; rw [c1]; exact b2.vsz⟩, b3, ?_⟩, rfl, hDs, hent⟩
    intro d hd
    obtain ⟨h1, h2⟩ := hD d hd
    exact ⟨h1, fun i hi => by rw [h2 i hi]; exact (hent i i hi hi).symm⟩
  cases hAD : A.D with
  | none =>
    have hBD : B.D = none := by
      rw [hAD] at hs
      cases h : B.D with
      | none => rfl
      | some _ => rw [h] at hs; simp at hs
    simp only [diagUpd, hBD, Ok_some, Ok_pure]
    obtain ⟨C, h1, h2, _, h4⟩ := key none (by simp) (by rw [hBD])
    exact ⟨trivial, C, h1, h2, trivial, h4⟩
  | some da =>
    cases hBD : B.D with
    | none => rw [hAD, hBD] at hs; simp at hs
    | some db =>
      obtain ⟨p1, p2⟩ := a4 da hAD
      obtain ⟨q1, q2⟩ := b4 db hBD
      refine (diagUpd_spec f p1 (by omega)).mono ?_
      rintro r ⟨d, rfl, d1, d2⟩
      simp only [Ok_pure]
      obtain ⟨C, h1, h2, h3, h4⟩ := key (some d) (by
        intro d' hd'
        cases hd'
        exact ⟨by omega, fun i hi => by rw [d2 i (by omega), p2 i (by omega), q2 i hi]⟩) (by rw [hBD]; rfl)
      exact ⟨trivial, C, h1, h2, rfl, h4⟩

/-- **C63.** `lis_matrix_axpy(alpha,A,B)` on dense matrices, both split or both unsplit: `B` becomes
`B + alpha A` (its separate diagonal too). -/
theorem matrixAxpy_spec [Add R] [Mul R] (alpha : R) {A B : SMat R} {A' B' : Dns R} (hA : A.Dense A')
    (hB : B.Dense B') (hn : B'.n = A'.n) (hs : A.D.isSome = B.D.isSome) :
    Ok (matrixAxpy alpha A B) fun r => r.1 = .success ∧ ∃ C, r.2.Dense C ∧ C.n = B'.n ∧
      r.2.D.isSome = B.D.isSome ∧
      ∀ i j, i < B'.n → j < B'.n → C.entry i j = B'.entry i j + alpha * A'.entry i j :=
  matrixUpd_spec _ hA hB hn hs

/-- **C63.** `lis_matrix_xpay(alpha,A,B)`: `B` becomes `A + alpha B`. -/
theorem matrixXpay_spec [Add R] [Mul R] (alpha : R) {A B : SMat R} {A' B' : Dns R} (hA : A.Dense A')
    (hB : B.Dense B') (hn : B'.n = A'.n) (hs : A.D.isSome = B.D.isSome) :
    Ok (matrixXpay alpha A B) fun r => r.1 = .success ∧ ∃ C, r.2.Dense C ∧ C.n = B'.n ∧
      r.2.D.isSome = B.D.isSome ∧
      ∀ i j, i < B'.n → j < B'.n → C.entry i j = A'.entry i j + alpha * B'.entry i j :=
  matrixUpd_spec _ hA hB hn hs

/-- **C63.** `lis_matrix_axpyz(alpha,A,B,C)` on unsplit dense matrices: `C` becomes `alpha A + B`. -/
theorem matrixAxpyz_spec [Add R] [Mul R] (alpha : R) {A B C : SMat R} {A' B' C' : Dns R} (hA : A.Dense A')
    (hB : B.Dense B') (hC : C.Dense C') (hn : B'.n = A'.n) (hn' : C'.n = A'.n) (hs : C.D = none) :
    Ok (matrixAxpyz alpha A B C) fun r => r.1 = .success ∧ ∃ E, r.2.Dense E ∧ E.n = C'.n ∧ r.2.D = none ∧
      ∀ i j, i < C'.n → j < C'.n → E.entry i j = alpha * A'.entry i j + B'.entry i j := by
  obtain ⟨a1, a2, a3, -⟩ := hA
  obtain ⟨b1, b2, b3, -⟩ := hB
  obtain ⟨c1, c2, c3, -⟩ := hC
  have hva := a2.vsz
  have hvb := b2.vsz
  have hvc := c2.vsz
  unfold matrixAxpyz
  simp only [a1, b1, c1, AnyMat.value, Ok_bind]
  rw [b3, hn] at hvb
  rw [c3, hn'] at hvc
  rw [a3] at hva
  rw [a3]
  refine (dnsZip_spec _ hva hvb hvc).mono ?_
  rintro c ⟨e1, e2⟩
  have hD : diagZip (fun a b => alpha * a + b) A'.n A.D B.D C.D = some none := by
    rw [hs]; unfold diagZip; cases A.D <;> cases B.D <;> rfl
  rw [hD]
  simp only [Ok_some, Ok_pure]
  refine ⟨trivial, { C' with value := c }, ⟨rfl, ⟨by simp only; rw [e1]; exact c2.vsz⟩, c3, by simp⟩, rfl, trivial,
    fun i j hi hj => ?_⟩
  unfold Dns.entry
  simp only
  rw [hn'] at hi hj ⊢
  rw [hn]
  exact e2 i j hi hj

/-- **C63 (finding).** When `B` is split and `A` is not, `lis_matrix_axpy` and `lis_matrix_xpay` report
success but leave the separate diagonal of `B` as it was. -/
theorem matrixUpd_stale (f : R → R → R) {A B : SMat R} {A' B' : Dns R} (hA : A.Dense A') (hB : B.Dense B')
    (hn : B'.n = A'.n) (hAD : A.D = none) :
    Ok (matrixUpd f A B) fun r => r.1 = .success ∧ r.2.D = B.D ∧ ∃ C, r.2.M = .dns C ∧
      ∀ i j, i < B'.n → j < B'.n → C.entry i j = f (A'.entry i j) (B'.entry i j) := by
  obtain ⟨a1, a2, a3, -⟩ := hA
  obtain ⟨b1, b2, b3, -⟩ := hB
  have hva := a2.vsz
  have hvb := b2.vsz
  unfold matrixUpd
  simp only [a1, b1, AnyMat.value, Ok_bind, hAD, diagUpd, Ok_some, Ok_pure]
  rw [b3, hn] at hvb
  rw [a3] at hva
  rw [a3]
  refine (dnsUpd_spec f hva hvb).mono ?_
  rintro c ⟨c1, c2⟩
  refine ⟨trivial, trivial, _, rfl, fun i j hi hj => ?_⟩
  unfold Dns.entry
  simp only
  rw [hn] at hi hj ⊢
  exact c2 i j hi hj

/-- **C63.** For any other format of `A` nothing happens and LIS_ERR_NOT_IMPLEMENTED is returned. -/
theorem matrixUpd_notImplemented (f : R → R → R) (A B : SMat R) (h : A.M.fmt ≠ .dns) :
    matrixUpd f A B = some (.notImplemented, B) := by
  unfold matrixUpd
  cases hM : A.M <;> simp only
  rw [hM] at h
  exact absurd rfl h

theorem iter_last {σ : Type} (f : ℕ → σ → Option σ) : ∀ (k i : ℕ) (s : σ),
    iter f (k + 1) i s = (iter f k i s).bind (f (i + k))
  | 0, i, s => by simp [iter]
  | k + 1, i, s => by
    rw [show iter f (k + 1 + 1) i s = (f i s).bind fun s => iter f (k + 1) (i + 1) s from rfl,
      show iter f (k + 1) i s = (f i s).bind fun s => iter f k (i + 1) s from rfl, Option.bind_assoc]
    congr 1; funext s'
    rw [iter_last f k (i + 1) s', show i + 1 + k = i + (k + 1) by omega]

theorem loop_last {σ : Type} {lo hi : ℕ} (h : lo ≤ hi) {s : σ} {f : ℕ → σ → Option σ} :
    loop lo (hi + 1) s f = (loop lo hi s f).bind (f hi) := by
  unfold loop
  rw [show hi + 1 - lo = (hi - lo) + 1 by omega, iter_last, show lo + (hi - lo) = hi by omega]

theorem dnsUpd_oob (f : R → R → R) {n np : ℕ} {a b : Arr R} (h : b.size < np * n) : dnsUpd f n np a b = none := by
  have hn : 0 < n := by rcases Nat.eq_zero_or_pos n with h0 | h0; · rw [h0] at h; omega
                        exact h0
  have hnp : 0 < np := by rcases Nat.eq_zero_or_pos np with h0 | h0; · rw [h0] at h; omega
                          exact h0
  by_contra hc
  obtain ⟨c, hc⟩ := Option.ne_none_iff_exists'.1 hc
  have hloop : ∀ {lo hi : ℕ} {g : ℕ → Arr R → Option (Arr R)} {s t : Arr R}, loop lo hi s g = some t →
      (∀ i s t, lo ≤ i → i < hi → g i s = some t → t.size = s.size) →
      t.size = s.size ∧ ∀ i, lo ≤ i → i < hi → ∃ s' t', g i s' = some t' ∧ s'.size = s.size := by
    intro lo hi g s t ht hg
    by_cases hlh : lo ≤ hi
    swap
    · have : loop lo hi s g = some s := by
        unfold loop
        rw [show hi - lo = 0 by omega]
        rfl
      rw [this] at ht
      cases ht
      exact ⟨rfl, fun i h1 h2 => by omega⟩
    obtain ⟨m, rfl⟩ : ∃ m, hi = lo + m := ⟨hi - lo, by omega⟩
    clear hlh
    induction m generalizing t with
    | zero =>
      have : loop lo (lo + 0) s g = some s := by
        unfold loop
        rw [show lo + 0 - lo = 0 by omega]
        rfl
      rw [this] at ht
      cases ht
      exact ⟨rfl, fun i h1 h2 => by omega⟩
    | succ m ih =>
      rw [show lo + (m + 1) = (lo + m) + 1 by omega, loop_last (by omega)] at ht
      cases hu : loop lo (lo + m) s g with
      | none => rw [hu] at ht; cases ht
      | some u =>
        rw [hu] at ht
        obtain ⟨i1, i2⟩ := ih hu fun i s t h1 h2 h3 => hg i s t h1 (by omega) h3
        have ht' : g (lo + m) u = some t := ht
        refine ⟨(hg _ _ _ (by omega) (by omega) ht').trans i1, fun i h1 h2 => ?_⟩
        by_cases he : i = lo + m
        · subst he; exact ⟨u, t, ht', i1⟩
        · exact i2 i h1 (by omega)
  have hin : ∀ (i : ℕ) (s t : Arr R) (j : ℕ), (do
      let x ← a.rd (j * n + i)
      let y ← s.rd (j * n + i)
      s.wr (j * n + i) (f x y)) = some t → t.size = s.size ∧ j * n + i < s.size := by
    intro i s t j ht
    simp only [Option.bind_eq_bind, Option.bind_eq_some_iff, Arr.rd, Arr.wr] at ht
    obtain ⟨x, _, y, h2, h3⟩ := ht
    split at h2
    · next hh =>
      rw [if_pos hh] at h3
      cases h3
      exact ⟨rfl, hh⟩
    · cases h2
  unfold dnsUpd at hc
  have h1 := hloop hc fun j s t _ _ ht => (hloop ht fun i s t _ _ ht => (hin i s t j ht).1).1
  obtain ⟨s', t', h2, h3⟩ := h1.2 (np - 1) (by omega) (by omega)
  have h4 := hloop h2 fun i s t _ _ ht => (hin i s t (np - 1) ht).1
  obtain ⟨s'', t'', h5, h6⟩ := h4.2 (n - 1) (by omega) (by omega)
  have h7 := (hin _ _ _ _ h5).2
  have h8 : (np - 1) * n + (n - 1) + 1 = np * n := by
    obtain ⟨q, rfl⟩ : ∃ q, np = q + 1 := ⟨np - 1, by omega⟩
    rw [Nat.add_sub_cancel, Nat.add_mul, Nat.one_mul]
    omega
  omega

/-- **C63 (finding).** Only the format of `A` is checked: when `A` is dense and `B` (in whatever format,
CSR with fewer than n² elements, say, or dense but smaller) has a shorter `value` array,
`lis_matrix_axpy` and `lis_matrix_xpay` write beyond its end. -/
theorem matrixUpd_oob (f : R → R → R) {A B : SMat R} {A' : Dns R} (hA : A.M = .dns A')
    (h : B.M.value.size < A'.np * A'.n) : matrixUpd f A B = none := by
  unfold matrixUpd
  simp only [hA]
  rw [dnsUpd_oob f h]
  rfl

/-! ### shifting by a matrix -/

theorem denseOf [AddCommMonoid R] [DecidableEq R] (J : ConvJunk R) (a : ConvArgs) {A : AnyMat R} (h : A.WF)
    (hx : A.Exportable) (hd : A.Distinct) :
    Ok (matrixConvert J a .dns A) fun r => A.Same r.2.1 ∧ r.2.1.fmt = A.fmt ∧ ∃ D, AnyMat.dense? r.2.2 = some D ∧
      D.WF ∧ D.np = D.n ∧ D.n = A.n ∧ ∀ i j, i < A.n → j < A.n → D.entry i j = A.entry i j := by
  refine (matrixConvert_spec J a .dns A h hx (by decide) hd).mono ?_
  rintro r ⟨-, h1, h2, X, h3, h4, h5⟩
  refine ⟨h1, h2, ?_⟩
  rw [h3]
  cases X <;> simp only [AnyMat.fmt, reduceCtorEq] at h4
  exact ⟨_, rfl, h5.1.1, h5.1.2, h5.2.1, h5.2.2⟩

theorem convert_dns_csr [AddCommMonoid R] [DecidableEq R] (J : ConvJunk R) (a : ConvArgs) {D : Dns R} (h : D.WF)
    (hnp : D.np = D.n) : Ok (matrixConvert J a .csr (.dns D)) fun r => ∃ C, r.2.2 = some (.csr C) ∧
      (AnyMat.csr C).WF ∧ (AnyMat.csr C).Distinct ∧ C.n = D.n ∧
      (∀ i j, i < D.n → j < D.n → C.entry i j = D.entry i j) := by
  unfold matrixConvert
  rw [if_neg (by simp [AnyMat.fmt])]
  simp only
  unfold convertViaCsr
  simp only [toCsr, fromCsr, Ok_bind]
  obtain ⟨C, e, c1, c2, c3, c4, -, c6⟩ := dns2csr_spec J.i1 J.v1 D h
  rw [e]
  simp only [Option.map_some, Ok_some, Ok_pure]
  exact ⟨C, rfl, ⟨c1, by rw [c4, c3, hnp]⟩, c2, c3, fun i j hi hj => c6 i j hi (by omega)⟩

/-- **C63.** `lis_matrix_shift_matrix(A,B,sigma)` with `A` in CSR and `B` in any format, no position stored
twice: `A` becomes `A - sigma B`, again in CSR, `B` stays. -/
theorem shiftMatrix_csr [Ring R] [DecidableEq R] (J1 J2 J3 : ConvJunk R) (a : ConvArgs) (sigma : R)
    {A : Csr R} {B : AnyMat R} (hA : (AnyMat.csr A).WF) (hAd : (AnyMat.csr A).Distinct)
    (hB : B.WF) (hBx : B.Exportable) (hBd : B.Distinct) (hn : B.n = A.n) :
    Ok (shiftMatrix J1 J2 J3 a sigma (.csr A) B) fun r => r.1 = .success ∧ B.Same r.2.2 ∧ r.2.2.fmt = B.fmt ∧
      ∃ C, r.2.1 = .csr C ∧ (AnyMat.csr C).WF ∧ (AnyMat.csr C).Distinct ∧ C.n = A.n ∧
        ∀ i j, i < A.n → j < A.n → C.entry i j = A.entry i j - sigma * B.entry i j := by
  unfold shiftMatrix
  simp only [Ok_bind]
  refine (denseOf J1 a hA trivial hAd).mono ?_
  rintro r1 ⟨s1, s2, Ad, e1, w1, p1, n1, v1⟩
  refine ⟨Ad, e1, ?_⟩
  refine (denseOf J2 a hB hBx hBd).mono ?_
  rintro r2 ⟨t1, t2, Bd, e2, w2, p2, n2, v2⟩
  refine ⟨Bd, e2, ?_⟩
  have hnA : (AnyMat.csr A).n = A.n := rfl
  have hnn : Bd.n = Ad.n := by rw [n2, n1, hn]; rfl
  have hva := w1.vsz
  have hvb := w2.vsz
  rw [p1, ← hnn] at hva
  rw [p2] at hvb
  beta_reduce
  rw [p2]
  refine (dnsUpd_spec _ hvb hva).mono ?_
  rintro v ⟨z1, z2⟩
  rw [s2]
  have hw : ({ Ad with value := v } : Dns R).WF := ⟨by simp only; rw [z1]; exact w1.vsz⟩
  refine (convert_dns_csr J3 a hw p1).mono ?_
  rintro r3 ⟨C, e3, c1, c2, c3, c4⟩
  simp only [Ok_pure]
  refine ⟨trivial, t1, t2, C, ?_, c1, c2, c3.trans n1, fun i j hi hj => ?_⟩
  · cases h : r1.2.1 with
    | csr A1 => rw [e3]; rfl
    | _ => rw [h] at s2; cases s2
  · have hi' : i < Bd.n := by omega
    have hj' : j < Bd.n := by omega
    rw [c4 i j (by simp only; omega) (by simp only; omega)]
    have := z2 i j hi' hj'
    unfold Dns.entry at v1 v2
    show v.get (j * Ad.n + i) = _
    rw [← hnn, this, v2 i j (by omega) (by omega), hnn, v1 i j hi hj, neg_mul, ← sub_eq_add_neg]
    rfl

/-- **C63.** Shifting back restores the entries of `A`. -/
theorem shiftMatrix_csr_back [Ring R] [DecidableEq R] (J1 J2 J3 J4 J5 J6 : ConvJunk R) (a : ConvArgs) (sigma : R)
    {A : Csr R} {B : AnyMat R} (hA : (AnyMat.csr A).WF) (hAd : (AnyMat.csr A).Distinct)
    (hB : B.WF) (hBx : ∀ X, B.Same X → X.fmt = B.fmt → X.Exportable ∧ X.Distinct) (hn : B.n = A.n) :
    Ok (shiftMatrix J1 J2 J3 a sigma (.csr A) B) fun r =>
      Ok (shiftMatrix J4 J5 J6 a (-sigma) r.2.1 r.2.2) fun r => r.1 = .success ∧ (AnyMat.csr A).Same r.2.1 := by
  obtain ⟨x1, x2⟩ := hBx B (.refl hB) rfl
  refine (shiftMatrix_csr J1 J2 J3 a sigma hA hAd hB x1 x2 hn).mono ?_
  rintro r ⟨-, t1, t2, C, e, c1, c2, c3, c4⟩
  obtain ⟨y1, y2⟩ := hBx r.2.2 t1 t2
  rw [e]
  refine (shiftMatrix_csr J4 J5 J6 a (-sigma) c1 c2 t1.1 y1 y2 (by rw [t1.2.1, c3, hn])).mono ?_
  rintro r' ⟨u1, -, -, E, e', d1, -, d3, d4⟩
  rw [e']
  refine ⟨u1, d1, d3.trans c3, fun i j hi hj => ?_⟩
  have hi' : i < A.n := hi
  have hj' : j < A.n := hj
  show E.entry i j = A.entry i j
  rw [d4 i j (by omega) (by omega), c4 i j hi' hj', t1.2.2 i j (by omega) (by omega), neg_mul, sub_neg_eq_add,
    sub_add_cancel]

/-- **C63 (finding).** With `A` in any other storage format, `lis_matrix_shift_matrix` whenever it returns
reports success and has not changed `A`. -/
theorem shiftMatrix_ignored [Ring R] [DecidableEq R] (J1 J2 J3 : ConvJunk R) (a : ConvArgs) (sigma : R)
    {A B : AnyMat R} (hfmt : A.fmt ≠ .csr) (hA : A.WF) (hAx : A.Exportable) (hAd : A.Distinct)
    {r : Err × AnyMat R × AnyMat R} (h : shiftMatrix J1 J2 J3 a sigma A B = some r) :
    r.1 = .success ∧ A.Same r.2.1 ∧ r.2.1.fmt = A.fmt := by
  unfold shiftMatrix at h
  obtain ⟨r1, g1, s1, s2, Ad, e1, -⟩ := denseOf J1 a hA hAx hAd
  rw [g1] at h
  simp only [Option.bind_eq_bind, Option.bind_some, e1, Option.bind_eq_some_iff] at h
  obtain ⟨r2, _, Bd, _, v, _, r3, _, h⟩ := h
  have h' : r = (.success, storeInto r1.2.1 r3.2.2, r2.2.1) := (Option.some.inj h).symm
  have hst : storeInto r1.2.1 r3.2.2 = r1.2.1 := by
    cases hh : r1.2.1 with
    | csr X => rw [hh] at s2; exact absurd s2.symm hfmt
    | _ => rfl
  rw [h']
  simp only
  rw [hst]
  exact ⟨trivial, s1, s2⟩

/-- … and it does return when `A - sigma B` can be converted to the format of `A` (always for CSC, ELL,
JAD, DNS, COO). -/
theorem shiftMatrix_returns [Ring R] [DecidableEq R] (J1 J2 J3 : ConvJunk R) (a : ConvArgs) (sigma : R)
    {A B : AnyMat R} (hA : A.WF) (hAx : A.Exportable) (hAd : A.Distinct)
    (hB : B.WF) (hBx : B.Exportable) (hBd : B.Distinct) (hn : B.n = A.n)
    (hs : ∀ D : Dns R, (AnyMat.dns D).WF → D.n = A.n →
      (∀ i j, i < A.n → j < A.n → D.entry i j = A.entry i j - sigma * B.entry i j) → (AnyMat.dns D).Suits a A.fmt) :
    (shiftMatrix J1 J2 J3 a sigma A B).isSome := by
  have : Ok (shiftMatrix J1 J2 J3 a sigma A B) fun _ => True := by
    unfold shiftMatrix
    simp only [Ok_bind]
    refine (denseOf J1 a hA hAx hAd).mono ?_
    rintro r1 ⟨s1, s2, Ad, e1, w1, p1, n1, v1⟩
    refine ⟨Ad, e1, ?_⟩
    refine (denseOf J2 a hB hBx hBd).mono ?_
    rintro r2 ⟨t1, t2, Bd, e2, w2, p2, n2, v2⟩
    refine ⟨Bd, e2, ?_⟩
    have hnn : Bd.n = Ad.n := by rw [n2, n1, hn]
    have hva := w1.vsz
    have hvb := w2.vsz
    rw [p1, ← hnn] at hva
    rw [p2] at hvb
    beta_reduce
    rw [p2]
    refine (dnsUpd_spec _ hvb hva).mono ?_
    rintro v ⟨z1, z2⟩
    have hw : (AnyMat.dns { Ad with value := v }).WF := ⟨⟨by simp only; rw [z1]; exact w1.vsz⟩, p1⟩
    have ht : r1.2.1.fmt ≠ .other := by cases r1.2.1 <;> simp [AnyMat.fmt]
    refine (matrixConvert_spec J3 a r1.2.1.fmt (.dns { Ad with value := v }) hw trivial ht ?_).mono ?_
    · rw [s2]
      refine hs _ hw n1 fun i j hi hj => ?_
      have := z2 i j (by omega) (by omega)
      unfold Dns.entry at v1 v2
      show v.get (j * Ad.n + i) = _
      rw [← hnn, this, v2 i j (by omega) (by omega), hnn, v1 i j hi hj, neg_mul, ← sub_eq_add_neg]
    · rintro r3 -
      simp only [Ok_pure]
  obtain ⟨r, h, -⟩ := this
  rw [h]; rfl

/-! ### not vacuous -/

theorem exDns_dense : SMat.Dense ⟨.dns exDns, none⟩ exDns := ⟨rfl, ⟨by decide⟩, rfl, by simp⟩

/-- 3×3: `lis_matrix_axpy(2,A,A)` -/
example : Ok (matrixAxpy 2 ⟨.dns exDns, none⟩ ⟨.dns exDns, none⟩) fun r => ∃ C, r.2.M = .dns C ∧ C.entry 2 0 = 15 := by
  refine (matrixAxpy_spec 2 exDns_dense exDns_dense rfl rfl).mono ?_
  rintro r ⟨-, C, h, -, -, hC⟩
  exact ⟨C, h.1, (hC 2 0 (by decide) (by decide)).trans (by decide)⟩

/-- split matrices: the diagonals too -/
example : Ok (matrixXpay 2 ⟨.dns exDns, some (.ofList [1, 3, 6])⟩ ⟨.dns exDns, some (.ofList [1, 3, 6])⟩) fun r =>
    ∃ d, r.2.D = some d ∧ d.get 1 = 9 := by
  have hd : SMat.Dense ⟨.dns exDns, some (.ofList [1, 3, 6])⟩ exDns :=
    ⟨rfl, ⟨by decide⟩, rfl, fun d hd => by
      cases hd
      exact ⟨by decide, fun i hi => by
        change i < 3 at hi
        interval_cases i <;> rfl⟩⟩
  refine (matrixXpay_spec 2 hd hd rfl rfl).mono ?_
  rintro r ⟨-, C, h, hn, hs, hC⟩
  obtain ⟨d, hd'⟩ := Option.isSome_iff_exists.1 hs
  have h3 : C.n = 3 := hn
  refine ⟨d, hd', ?_⟩
  rw [(h.2.2.2 d hd').2 1 (by omega)]
  exact (hC 1 1 (by decide) (by decide)).trans (by decide)

/-- `A` dense, `B` in CSR with six elements: out of bounds -/
example : matrixAxpy (2 : ℤ) ⟨.dns exDns, none⟩ ⟨.csr exCsrD, none⟩ = none := matrixUpd_oob _ rfl (by decide)

/-- `A` in CSR, `B` dense -/
example : Ok (shiftMatrix exConvJunk exConvJunk exConvJunk exConvArgs 2 (.csr exCsrD) (.dns exDns)) fun r =>
    r.1 = .success ∧ r.2.1.entry 2 0 = -10 ∧ r.2.1.entry 2 1 = 6 := by
  refine (shiftMatrix_csr exConvJunk exConvJunk exConvJunk exConvArgs 2 (A := exCsrD) (B := .dns exDns)
    ⟨exCsrD_wf, rfl⟩ exCsrD_nodup ⟨⟨by decide⟩, rfl⟩ trivial trivial rfl).mono ?_
  rintro r ⟨h, -, -, C, hC, -, -, -, hv⟩
  rw [hC]
  exact ⟨h, (hv 2 0 (by decide) (by decide)).trans (by decide), (hv 2 1 (by decide) (by decide)).trans (by decide)⟩

/-- `A` dense: success, and nothing changed -/
example : Ok (shiftMatrix exConvJunk exConvJunk exConvJunk exConvArgs 2 (.dns exDns) (.csr exCsrD)) fun r =>
    r.1 = .success ∧ r.2.1.entry 2 0 = 5 ∧ r.2.1.entry 0 0 = 1 := by
  obtain ⟨r, hr⟩ := Option.isSome_iff_exists.1 (shiftMatrix_returns exConvJunk exConvJunk exConvJunk exConvArgs 2
    (A := .dns exDns) (B := .csr exCsrD) ⟨⟨by decide⟩, rfl⟩ trivial trivial ⟨exCsrD_wf, rfl⟩ trivial exCsrD_nodup rfl
    fun _ _ _ _ => trivial)
  obtain ⟨h1, h2, -⟩ := shiftMatrix_ignored exConvJunk exConvJunk exConvJunk exConvArgs 2
    (A := .dns exDns) (B := .csr exCsrD) (by decide) ⟨⟨by decide⟩, rfl⟩ trivial trivial hr
  exact ⟨r, hr, h1, (h2.2.2 2 0 (by decide) (by decide)).trans (by decide),
    (h2.2.2 0 0 (by decide) (by decide)).trans (by decide)⟩

end Lis
