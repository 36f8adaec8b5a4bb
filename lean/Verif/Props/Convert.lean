import Verif.Model.Convert
import Verif.Props.Convert1
import Verif.Props.Convert2
import Verif.Props.Convert2b
import Verif.Props.ConvertVbr
import Verif.Props.Matvec1
import Verif.Lemmas.Convert3
import Mathlib.Tactic.IntervalCases

/-!
# C08, C09: `lis_matrix_convert` between any two storage formats

`matrixConvert` is the dispatcher: same format → copy, CSC → BSC direct, everything else through CSR.  The theorems
compose the theorems on the individual conversions.  `Convertible` lists exactly what the target format needs of the
elements stored in the matrix; what happens otherwise is in `Props/Convert1` … `Props/ConvertVbr` (negative theorems).
-/

namespace Lis
open Finset
variable {R : Type}

/-- what `lis_matrix_convert` needs of the stored elements of the (intermediate CSR) matrix `C` for the target `t` -/
def Convertible (a : ConvArgs) (t : Fmt) (C : Csr R) : Prop :=
  match t with
  | .csr => True
  | .csc => True
  | .ell => True
  | .jad => True
  | .coo => True
  | .other => True
  | .dns => C.NoDup
  | .msr => C.NoDup ∧ ∀ i, i < C.n → C.HasDiag i
  | .dia => C.NoDup ∧ 0 < C.nnz
  | .bsr => C.NoDup ∧ 0 < a.bnr ∧ 0 < a.bnc
  | .bsc => C.NoDup ∧ 0 < a.bnr ∧ a.bnr = a.bnc
  | .vbr => C.NoDup ∧ match a.part with
    | some (nr, nc, row, col) => PtrWF nr C.n row ∧ PtrWF nc C.n col
    | none => C.n = 0 ∨ ∃ q, q < C.nnz ∧ C.index.get q + 1 = C.n

/-- `B` is a well-formed matrix with the entries of `A` -/
def AnyMat.Same [AddCommMonoid R] (A B : AnyMat R) : Prop :=
  B.WF ∧ B.n = A.n ∧ ∀ i j, i < A.n → j < A.n → B.entry i j = A.entry i j

theorem AnyMat.Same.refl [AddCommMonoid R] {A : AnyMat R} (h : A.WF) : A.Same A := ⟨h, rfl, fun _ _ _ _ => rfl⟩

theorem AnyMat.Same.trans [AddCommMonoid R] {A B C : AnyMat R} (h : A.Same B) (h' : B.Same C) : A.Same C :=
  ⟨h'.1, h'.2.1.trans h.2.1, fun i j hi hj => (h'.2.2 i j (h.2.1 ▸ hi) (h.2.1 ▸ hj)).trans (h.2.2 i j hi hj)⟩

/-- the number of MSR elements announced by CSR → MSR is right when every row stores its diagonal -/
theorem csr2msr_nnz [AddCommMonoid R] (junk : ℕ → ℕ → ℕ) (vjunk : ℕ → R) (A : Csr R) (h : A.WF) (hd : A.NoDup)
    (hD : ∀ i, i < A.n → A.HasDiag i) : Ok (csr2msr junk vjunk A) fun r => A.nnz = r.1.nnz + A.n := by
  refine (csr2msr_spec' junk vjunk h hd).mono ?_
  rintro ⟨B, ndz⟩ ⟨_, b2, _, _⟩
  have hoff : ∀ i, i < A.n → (A.offRow i).length + 1 = (A.rowList i).length := fun i hi => by
    have h1 := filter_key_le_one (hd.rowList hi) i
    rw [if_pos ((A.hasDiag_iff i).1 (hD i hi))] at h1
    exact h1
  rw [h.rows.nnz, b2, concatRows_length, concatRows_length,
    ← sum_congr rfl fun i hi => hoff i (by simpa using hi), sum_add_distrib]
  simp

/-- the first half of `lis_matrix_convert`: any format to CSR -/
theorem toCsr_spec [AddCommMonoid R] [DecidableEq R] (J : ConvJunk R) (A : AnyMat R) (h : A.WF) (hx : A.Exportable) :
    Ok (toCsr J A) fun r => A.Same r.1 ∧ r.1.fmt = A.fmt ∧ A.Same (.csr r.2) := by
  cases A with
  | csr A => exact ⟨_, rfl, .refl h, rfl, .refl h⟩
  | csc A =>
    obtain ⟨C, e, c1, c2, c3, c4⟩ := csc2csr_spec J.i1 J.v1 A h.1
    refine ⟨(.csc A, C), by rw [toCsr, e]; rfl, .refl h, rfl, ⟨c1, by rw [c3, c2, h.2]⟩, c2, fun i j hi hj => c4 i j hi ?_⟩
    rw [h.2]; exact hj
  | msr nnz A =>
    obtain ⟨C, e, c1, c2, c3, _, _, c6, c7⟩ := msr2csr_spec J.i1 J.v1 nnz A h.1 (by
      have := List.length_filter_le (fun i => decide (A.value.get i ≠ 0)) (List.range A.n)
      rw [List.length_range] at this
      have := h.2
      omega)
    exact ⟨(.msr nnz A, C), by rw [toCsr, e]; rfl, .refl h, rfl, ⟨c6 hx h.2, by rw [c2, c1]⟩, c1, fun i j hi _ => c7 i j hi⟩
  | dia A =>
    obtain ⟨C, e, c1, c2, c3, c4⟩ := dia2csr_spec J.i1 J.v1 A h
    exact ⟨(.dia A, C), by rw [toCsr, e]; rfl, .refl h, rfl, ⟨c1, by rw [c3, c2]⟩, c2, fun i j hi hj => c4 i j hi hj⟩
  | ell A =>
    obtain ⟨C, e, c1, c2, c3, c4⟩ := ell2csr_spec J.i1 J.v1 A h
    exact ⟨(.ell A, C), by rw [toCsr, e]; rfl, .refl h, rfl, ⟨c1, by rw [c3, c2]⟩, c2, fun i j hi _ => c4 i j hi⟩
  | jad A =>
    obtain ⟨C, e, c1, c2, c3, _, c4⟩ := jad2csr_spec J.i1 J.v1 A h.1
    exact ⟨(.jad A, C), by rw [toCsr, e]; rfl, .refl h, rfl, ⟨c1, by rw [c3, c2, h.2]⟩, c2, fun i j hi _ => c4 i j hi⟩
  | bsr A =>
    obtain ⟨C, e, c1, c2, c3, c4⟩ := bsr2csr_spec J.i1 J.v1 A h.1 h.2
    exact ⟨(.bsr A, C), by rw [toCsr, e]; rfl, .refl h, rfl, ⟨c1, by rw [c3, c2]⟩, c2, fun i j hi _ => c4 i j hi⟩
  | bsc A =>
    obtain ⟨C, e, c1, c2, c3, c4⟩ := bsc2csr_spec J.i1 J.v1 A h.1 h.2
    exact ⟨(.bsc A, C), by rw [toCsr, e]; rfl, .refl h, rfl, ⟨c1, by rw [c3, c2]⟩, c2, fun i j hi hj => c4 i j hi hj⟩
  | vbr A =>
    obtain ⟨C, e, c1, c2, c3, c4⟩ := vbr2csr_spec J.i1 J.v1 A h
    exact ⟨(.vbr A, C), by rw [toCsr, e]; rfl, .refl h, rfl, ⟨c1, by rw [c3, c2]⟩, c2, fun i j hi _ => c4 i j hi⟩
  | dns A =>
    obtain ⟨C, e, c1, _, c2, c3, _, c4⟩ := dns2csr_spec J.i1 J.v1 A h.1
    refine ⟨(.dns A, C), by rw [toCsr, e]; rfl, .refl h, rfl, ⟨c1, by rw [c3, c2, h.2]⟩, c2, fun i j hi hj => c4 i j hi ?_⟩
    rw [h.2]; exact hj
  | coo A =>
    obtain ⟨⟨A', C⟩, e, c1, c2, c3, _, c4, d1, d2, _, d3⟩ := coo2csr_spec J.i1 J.v1 A h
    exact ⟨(.coo A', C), by rw [toCsr, e]; rfl, ⟨d1, d2, fun i j _ _ => d3 i j⟩, rfl, ⟨c1, by rw [c3, c2]⟩, c2,
      fun i j hi _ => c4 i j hi⟩

/-- the second half of `lis_matrix_convert`: CSR to any format -/
theorem fromCsr_spec [AddCommMonoid R] (J : ConvJunk R) (a : ConvArgs) (t : Fmt) (C : Csr R) (h : C.WF)
    (hsq : C.np = C.n) (ht : t ≠ .other) (hr : Convertible a t C) :
    Ok (fromCsr J a t C) fun r => (AnyMat.csr C).Same (.csr r.1) ∧
      ∃ B, r.2 = some B ∧ B.fmt = t ∧ (AnyMat.csr C).Same B := by
  have hC : (AnyMat.csr C).WF := ⟨h, hsq⟩
  have hS := AnyMat.Same.refl hC
  cases t with
  | other => exact absurd rfl ht
  | csr => exact ⟨_, rfl, hS, _, rfl, rfl, hS⟩
  | csc =>
    obtain ⟨B, e, c1, c2, c3, _, c4⟩ := csr2csc_spec J.i2 J.v2 C h
    refine ⟨(C, some (.csc B)), by rw [fromCsr, e]; rfl, hS, _, rfl, rfl, ⟨c1, by rw [c3, c2, hsq]⟩, c2, fun i j hi hj => c4 i j hi ?_⟩
    rw [hsq]; exact hj
  | msr =>
    obtain ⟨r, e, ⟨c1, c2, _, c4, _⟩, c5⟩ :=
      (csr2msr_spec J.i2 J.v2 C h hr.1 hsq).conj (csr2msr_nnz J.i2 J.v2 C h hr.1 hr.2)
    exact ⟨(C, some (.msr C.nnz r.1)), by rw [fromCsr, e]; rfl, hS, _, rfl, rfl, ⟨c1, by rw [c2, c5]⟩, c2,
      fun i j hi _ => c4 i j hi (.inr (hr.2 i hi))⟩
  | dia =>
    obtain ⟨r, e, ⟨c1, c2, c3⟩, d1, d2, d3, d4⟩ := csr2dia_spec J.z J.v2 C h hr.1 hr.2
    exact ⟨(r.1, some (.dia r.2)), by rw [fromCsr, e]; rfl, ⟨⟨d1, by rw [d3, d2, hsq]⟩, d2, fun i j hi _ => d4 i j hi⟩, _, rfl, rfl, c1, c2,
      fun i j hi _ => c3 i j hi⟩
  | ell =>
    obtain ⟨B, e, c1, c2, c3⟩ := csr2ell_spec J.i2 J.v2 C h hsq
    exact ⟨(C, some (.ell B)), by rw [fromCsr, e]; rfl, hS, _, rfl, rfl, c1, c2, fun i j hi _ => c3 i j hi⟩
  | jad =>
    obtain ⟨B, e, c1, c2, c3, _, c4⟩ := csr2jad_spec J.i2 J.v2 C h
    exact ⟨(C, some (.jad B)), by rw [fromCsr, e]; rfl, hS, _, rfl, rfl, ⟨c1, by rw [c3, c2, hsq]⟩, c2, fun i j hi _ => c4 i j hi⟩
  | bsr =>
    obtain ⟨hd, h1, h2⟩ := hr
    obtain ⟨B, e, ⟨c1, c2, _, _, c3⟩, c4⟩ := (csr2bsr_spec J.i2 J.v2 C a.bnr a.bnc h1 h2 h hd hsq).conj
      (csr2bsr_padded J.i2 J.v2 C a.bnr a.bnc h1 h2 h hsq)
    exact ⟨(C, some (.bsr B)), by rw [fromCsr, e]; rfl, hS, _, rfl, rfl, ⟨c1, c4⟩, c2, fun i j hi _ => c3 i j hi⟩
  | bsc =>
    obtain ⟨hd, h1, h2⟩ := hr
    obtain ⟨B, e, c1, c2, c3, c4, c5⟩ := csr2csc_spec J.i2 J.v2 C h
    have hB : B.np = B.n := by rw [c3, c2, hsq]
    obtain ⟨D, e', ⟨d1, d2, _, _, d3⟩, d4⟩ := (csc2bsc_spec J.i3 J.v3 B a.bnr h1 c1 (c4 hd) hB).conj
      (csc2bsc_padded J.i3 J.v3 B a.bnr h1 c1 hB)
    rw [h2] at e'
    refine ⟨(C, some (.bsc D)), ?_, hS, _, rfl, rfl, ⟨d1, d4⟩, d2.trans c2, fun i j hi hj => ?_⟩
    · simp only [fromCsr]
      rw [e, h2, Option.bind_eq_bind, Option.bind_some, e']
      rfl
    · exact (d3 i j (by rw [c2]; exact hj)).trans (c5 i j hi (by rw [hsq]; exact hj))
  | vbr =>
    obtain ⟨bnr, bnc, part⟩ := a
    obtain ⟨hd, hp⟩ := hr
    cases part with
    | none =>
      obtain ⟨r, e, ⟨c1, c2, c3⟩, d1, d2, d3, d4⟩ := csr2vbr_spec J.i2 J.v2 C h hd hsq hp
      exact ⟨(r.1, some (.vbr r.2)), by simp only [fromCsr]; rw [e]; rfl, ⟨⟨d1, by rw [d3, d2, hsq]⟩, d2, fun i j hi _ => d4 i j hi⟩, _, rfl,
        rfl, c1, c2, fun i j hi _ => c3 i j hi⟩
    | some p =>
      obtain ⟨nr, nc, row, col⟩ := p
      obtain ⟨B, e, c1, c2, _, _, _, _, c3⟩ := csr2vbrWith_spec J.i2 J.v2 C h hd hsq nr nc row col hp.1 hp.2
      exact ⟨(C, some (.vbr B)), by simp only [fromCsr]; rw [e]; rfl, hS, _, rfl, rfl, c1, c2, fun i j hi _ => c3 i j hi⟩
  | dns =>
    obtain ⟨B, e, c1, c2, c3, c4⟩ := csr2dns_spec J.v2 C h hr
    refine ⟨(C, some (.dns B)), by rw [fromCsr, e]; rfl, hS, _, rfl, rfl, ⟨c1, by rw [c3, c2, hsq]⟩, c2, fun i j hi hj => c4 i j hi ?_⟩
    rw [hsq]; exact hj
  | coo =>
    obtain ⟨B, e, c1, c2, c3⟩ := csr2coo_spec J.i2 J.v2 C h hsq
    exact ⟨(C, some (.coo B)), by rw [fromCsr, e]; rfl, hS, _, rfl, rfl, c1, c2, fun i j hi _ => c3 i j hi⟩

theorem Csr.stored_of_entry [AddCommMonoid R] {C : Csr R} {i j : ℕ} (h : C.entry i j ≠ 0) :
    ∃ k, C.ptr.get i ≤ k ∧ k < C.ptr.get (i + 1) ∧ C.index.get k = j := by
  by_contra hc
  push Not at hc
  refine h (sum_eq_zero fun k hk => if_neg ?_)
  rw [mem_Ico] at hk
  exact hc k hk.1 hk.2

/-- **What a conversion needs**, in terms of the matrix: no position stored twice for the targets that
overwrite instead of adding; a nonzero diagonal for MSR; some nonzero entry for DIA; sensible block sizes; for VBR a
partition of `0..n` given by the user, or a nonzero entry in the last column. -/
def AnyMat.Suits [AddCommMonoid R] (a : ConvArgs) (t : Fmt) (A : AnyMat R) : Prop :=
  match t with
  | .dns => A.Distinct
  | .msr => A.Distinct ∧ ∀ i, i < A.n → A.entry i i ≠ 0
  | .dia => A.Distinct ∧ ∃ i j, i < A.n ∧ j < A.n ∧ A.entry i j ≠ 0
  | .bsr => A.Distinct ∧ 0 < a.bnr ∧ 0 < a.bnc
  | .bsc => A.Distinct ∧ 0 < a.bnr ∧ a.bnr = a.bnc
  | .vbr => A.Distinct ∧ match a.part with
    | some (nr, nc, row, col) => PtrWF nr A.n row ∧ PtrWF nc A.n col
    | none => A.n = 0 ∨ ∃ i, i < A.n ∧ A.entry i (A.n - 1) ≠ 0
  | _ => True

theorem AnyMat.Suits.convertible [AddCommMonoid R] {a : ConvArgs} {t : Fmt} {A : AnyMat R} {C : Csr R}
    (h : A.Suits a t) (hs : A.Same (.csr C)) (hd : A.Distinct → C.NoDup) : Convertible a t C := by
  have hn : C.n = A.n := hs.2.1
  have hst : ∀ i j, i < A.n → j < A.n → A.entry i j ≠ 0 →
      ∃ k, C.ptr.get i ≤ k ∧ k < C.ptr.get (i + 1) ∧ C.index.get k = j := fun i j hi hj he =>
    Csr.stored_of_entry (by rw [show C.entry i j = A.entry i j from hs.2.2 i j hi hj]; exact he)
  cases t with
  | dns => exact hd h
  | msr =>
    refine ⟨hd h.1, fun i hi => ?_⟩
    rw [hn] at hi
    exact hst i i hi hi (h.2 i hi)
  | dia =>
    refine ⟨hd h.1, ?_⟩
    obtain ⟨_, i, j, hi, hj, he⟩ := h
    obtain ⟨k, k1, k2, _⟩ := hst i j hi hj he
    have := hs.1.1.ptr.lt_nnz (by rw [hn]; exact hi) k2
    omega
  | bsr => exact ⟨hd h.1, h.2⟩
  | bsc => exact ⟨hd h.1, h.2⟩
  | vbr =>
    obtain ⟨bnr, bnc, part⟩ := a
    refine ⟨hd h.1, ?_⟩
    cases part with
    | some p => rw [hn]; exact h.2
    | none =>
      show C.n = 0 ∨ _
      rcases h.2 with h0 | ⟨i, hi, he⟩
      · exact .inl (hn.trans h0)
      · obtain ⟨k, k1, k2, k3⟩ := hst i _ hi (by omega) he
        exact .inr ⟨k, hs.1.1.ptr.lt_nnz (by rw [hn]; exact hi) k2, by rw [k3, hn]; omega⟩
  | _ => trivial

/-- **C08, C09.** `lis_matrix_convert`: a well-formed matrix `A` in any storage format, converted to any storage format
`t`, gives (return code success, no access outside any array, whatever the allocator returns) a well-formed matrix in
format `t` with exactly the entries of `A`; the input keeps its format and its entries (some conversions sort its
arrays). -/
theorem matrixConvert_spec [AddCommMonoid R] [DecidableEq R] (J : ConvJunk R) (a : ConvArgs) (t : Fmt) (A : AnyMat R)
    (h : A.WF) (hx : A.Exportable) (ht : t ≠ .other) (hr : A.Suits a t) :
    Ok (matrixConvert J a t A) fun r => r.1 = .success ∧ A.Same r.2.1 ∧ r.2.1.fmt = A.fmt ∧
      ∃ B, r.2.2 = some B ∧ B.fmt = t ∧ A.Same B := by
  have via : Ok (convertViaCsr J a t A) fun r => r.1 = .success ∧ A.Same r.2.1 ∧ r.2.1.fmt = A.fmt ∧
      ∃ B, r.2.2 = some B ∧ B.fmt = t ∧ A.Same B := by
    obtain ⟨⟨A', C⟩, e, s1, s2, s3⟩ := toCsr_spec J A h hx
    have hd : A.Distinct → C.NoDup := fun hd => by
      obtain ⟨r, e', hr⟩ := toCsr_nodup J A h hd
      rw [e] at e'
      cases e'
      exact hr
    obtain ⟨⟨C', _⟩, e', t1, B, rfl, t2, t3⟩ := fromCsr_spec J a t C s3.1.1 s3.1.2 ht (hr.convertible s3 hd)
    simp only [convertViaCsr, e, e', Option.bind_eq_bind, Option.bind_some]
    refine ⟨_, rfl, rfl, ?_, ?_, B, rfl, t2, s3.trans t3⟩
    · cases A with
      | csr A => exact s3.trans t1
      | _ => exact s1
    · cases A with
      | csr A => rfl
      | _ => exact s2
  unfold matrixConvert
  split
  · rename_i hf
    exact ⟨_, rfl, rfl, .refl h, rfl, A, rfl, hf.1, .refl h⟩
  · cases A with
    | csc A =>
      cases t with
      | bsc =>
        obtain ⟨hd, h1, h2⟩ := hr
        obtain ⟨D, e, ⟨d1, d2, _, _, d3⟩, d4⟩ := (csc2bsc_spec J.i3 J.v3 A a.bnr h1 h.1 hd h.2).conj
          (csc2bsc_padded J.i3 J.v3 A a.bnr h1 h.1 h.2)
        refine ⟨(.success, .csc A, some (.bsc D)), ?_, rfl, .refl h, rfl, _, rfl, rfl, ⟨d1, d4⟩, d2,
          fun i j _ hj => d3 i j hj⟩
        simp only
        rw [← h2, e]
        rfl
      | _ => exact via
    | _ => exact via

/-- **C08, C09.** An unknown target format is reported as not implemented, and nothing but the input (same format,
same entries) is left. -/
theorem matrixConvert_unknown [AddCommMonoid R] [DecidableEq R] (J : ConvJunk R) (a : ConvArgs) (A : AnyMat R)
    (h : A.WF) (hx : A.Exportable) :
    Ok (matrixConvert J a .other A) fun r => r.1 = .notImplemented ∧ A.Same r.2.1 ∧ r.2.1.fmt = A.fmt ∧
      r.2.2 = none := by
  have via : Ok (convertViaCsr J a .other A) fun r => r.1 = .notImplemented ∧ A.Same r.2.1 ∧ r.2.1.fmt = A.fmt ∧
      r.2.2 = none := by
    obtain ⟨⟨A', C⟩, e, s1, s2, s3⟩ := toCsr_spec J A h hx
    simp only [convertViaCsr, e, fromCsr, Option.bind_eq_bind, Option.bind_some]
    refine ⟨_, rfl, rfl, ?_, ?_, rfl⟩
    · cases A with
      | csr A => exact s3
      | _ => exact s1
    · cases A with
      | csr A => rfl
      | _ => exact s2
  unfold matrixConvert
  rw [if_neg (by rintro ⟨e, -⟩; cases A <;> cases e)]
  cases A <;> exact via

/-- **C09.** Conversion there and back: from any format to `t` and from `t` to any format `u`. -/
theorem matrixConvert_twice [AddCommMonoid R] [DecidableEq R] (J J' : ConvJunk R) (a a' : ConvArgs) (t u : Fmt)
    (A : AnyMat R) (h : A.WF) (hx : A.Exportable) (ht : t ≠ .other) (hu : u ≠ .other) (hr : A.Suits a t) :
    Ok (matrixConvert J a t A) fun r => ∃ B, r.2.2 = some B ∧ A.Same B ∧ (B.Exportable → B.Suits a' u →
      Ok (matrixConvert J' a' u B) fun r' => ∃ C, r'.2.2 = some C ∧ C.fmt = u ∧ A.Same C) := by
  refine (matrixConvert_spec J a t A h hx ht hr).mono ?_
  rintro r ⟨_, _, _, B, e, _, hB⟩
  refine ⟨B, e, hB, fun hx' hr' => (matrixConvert_spec J' a' u B hB.1 hx' hu hr').mono ?_⟩
  rintro r' ⟨_, _, _, C, e', f, hC⟩
  exact ⟨C, e', f, hB.trans hC⟩

/-! ### not vacuous -/

def exConvJunk : ConvJunk ℤ := ⟨exJ, exJ, exJ, fun _ _ => 7, exV, exV, exV⟩
def exConvArgs : ConvArgs := ⟨2, 2, none⟩
def exAny5 : AnyMat ℤ := .csr exCsr5
theorem exAny5_wf : exAny5.WF := ⟨exCsr5_wf, rfl⟩

/-- 5×5 CSR to every format except MSR (row 2 is empty) -/
example (t : Fmt) (ht : t ≠ .other) (hm : t ≠ .msr) :
    Ok (matrixConvert exConvJunk exConvArgs t exAny5) fun r => ∃ B, r.2.2 = some B ∧ B.fmt = t ∧ B.entry 3 4 = 5 := by
  refine (matrixConvert_spec exConvJunk exConvArgs t exAny5 exAny5_wf trivial ht ?_).mono ?_
  · cases t with
    | other => exact absurd rfl ht
    | msr => exact absurd rfl hm
    | dns => exact exCsr5_nodup
    | dia => exact ⟨exCsr5_nodup, 3, 4, by decide, by decide, by decide⟩
    | bsr => exact ⟨exCsr5_nodup, by decide, by decide⟩
    | bsc => exact ⟨exCsr5_nodup, by decide, by decide⟩
    | vbr => exact ⟨exCsr5_nodup, .inr ⟨3, by decide, by decide⟩⟩
    | _ => trivial
  · rintro r ⟨_, _, _, B, e, f, hB⟩
    exact ⟨B, e, f, (hB.2.2 3 4 (by decide) (by decide)).trans (by decide)⟩

/-- a full diagonal: to MSR -/
example : Ok (matrixConvert exConvJunk exConvArgs .msr (.csr exCsrD)) fun r => ∃ B, r.2.2 = some B ∧ B.fmt = .msr ∧
    B.entry 2 1 = 6 := by
  refine (matrixConvert_spec exConvJunk exConvArgs .msr (.csr exCsrD) ⟨exCsrD_wf, rfl⟩ trivial (by decide)
    ⟨exCsrD_nodup, by decide⟩).mono ?_
  rintro r ⟨_, _, _, B, e, f, hB⟩
  exact ⟨B, e, f, (hB.2.2 2 1 (by decide) (by decide)).trans (by decide)⟩

/-- and from MSR -/
example : Ok (matrixConvert exConvJunk exConvArgs .bsc (.msr 6 exMsr)) fun r => ∃ B, r.2.2 = some B ∧ B.fmt = .bsc ∧
    B.entry 2 0 = 5 := by
  refine (matrixConvert_spec exConvJunk exConvArgs .bsc (.msr 6 exMsr)
    ⟨⟨by decide, by decide, by decide, by decide, by decide, fun k h1 h2 => ?_⟩, rfl⟩ (fun i hi => ?_) (by decide)
    ⟨fun i hi k l h1 h2 h3 h4 => ?_, by decide, by decide⟩).mono ?_
  · change 4 ≤ k at h1
    change k < 7 at h2
    interval_cases k <;> decide
  · change i < 3 at hi
    interval_cases i <;> decide
  · change i < 3 at hi
    have hi4 : exMsr.index.get i = 4 + i ∧ exMsr.index.get (i + 1) = 5 + i := by interval_cases i <;> decide
    rw [hi4.1] at h1 h3
    rw [hi4.2] at h2 h4
    obtain rfl : k = 4 + i := by omega
    obtain rfl : l = 4 + i := by omega
    exact ⟨by interval_cases i <;> decide, fun _ => rfl⟩
  · rintro r ⟨_, _, _, B, e, f, hB⟩
    exact ⟨B, e, f, (hB.2.2 2 0 (by decide) (by decide)).trans (by decide)⟩

/-- a COO matrix with unsorted elements, to DIA through CSR -/
def exCoo2 : Coo ℤ := ⟨2, 2, Arr.ofList [1, 0], Arr.ofList [0, 1], Arr.ofList [5, 6]⟩
example : Ok (matrixConvert exConvJunk exConvArgs .dia (.coo exCoo2)) fun r => ∃ B, r.2.2 = some B ∧ B.fmt = .dia ∧
    B.entry 1 0 = 5 := by
  refine (matrixConvert_spec exConvJunk exConvArgs .dia (.coo exCoo2)
    (⟨by decide, by decide, by decide, by decide, by decide⟩ : exCoo2.WF) trivial (by decide)
    ⟨?_, 1, 0, by decide, by decide, by decide⟩).mono ?_
  · intro k l hk hl h1 h2
    change k < 2 at hk
    change l < 2 at hl
    interval_cases k <;> interval_cases l <;> first | rfl | exact absurd h1 (by decide)
  · rintro r ⟨_, _, _, B, e, f, hB⟩
    exact ⟨B, e, f, (hB.2.2 1 0 (by decide) (by decide)).trans (by decide)⟩

/-- diagonals, one of them outside the matrix -/
example : Ok (matrixConvert exConvJunk exConvArgs .bsr (.dia exDia3)) fun r => ∃ B, r.2.2 = some B ∧ B.fmt = .bsr ∧
    B.entry 2 0 = 3 := by
  refine (matrixConvert_spec exConvJunk exConvArgs .bsr (.dia exDia3) exDia3_wf trivial (by decide)
    ⟨?_, by decide, by decide⟩).mono ?_
  · intro k l hk hl h
    change k < 3 at hk
    change l < 3 at hl
    interval_cases k <;> interval_cases l <;> first | rfl | exact absurd h (by decide)
  · rintro r ⟨_, _, _, B, e, f, hB⟩
    exact ⟨B, e, f, (hB.2.2 2 0 (by decide) (by decide)).trans (by decide)⟩

end Lis
