import Verif.Model.Convert
import Verif.Props.Convert1
import Verif.Props.Convert2
import Verif.Props.Convert2b
import Verif.Props.ConvertVbr

/-! `toCsr` stores no position twice when the source does not. -/

namespace Lis
open Finset
variable {R : Type}

theorem emits_nodup {β γ : Type} (f : β → γ) {lo hi : ℕ} {em : ℕ → List β}
    (h1 : ∀ k, lo ≤ k → k < hi → ((em k).map f).Nodup)
    (h2 : ∀ k l, lo ≤ k → k < l → l < hi → ∀ x ∈ em k, ∀ y ∈ em l, f x ≠ f y) : ((emits lo hi em).map f).Nodup := by
  rcases Nat.lt_or_ge hi lo with h | h
  · simp [emits, show hi - lo = 0 by omega]
  · induction hi, h using Nat.le_induction with
    | base => simp [emits_self]
    | succ m hm ih =>
      rw [emits_succ hm, List.map_append, List.nodup_append]
      refine ⟨ih (fun k a b => h1 k a (by omega)) (fun k l a b c => h2 k l a b (by omega)), h1 m hm (by omega), ?_⟩
      intro a ha b hb
      obtain ⟨x, hx, rfl⟩ := List.mem_map.1 ha
      obtain ⟨y, hy, rfl⟩ := List.mem_map.1 hb
      obtain ⟨k, k1, k2, k3⟩ := emits_mem.1 hx
      exact h2 k m k1 k2 (by omega) x k3 y hy

theorem byKey_nodup {full : List (ℕ × ℕ × R)} (h : (full.map fun e => (e.1, e.2.1)).Nodup) (c : ℕ) :
    ((byKey c full).map Prod.fst).Nodup := by
  induction full with
  | nil => simp
  | cons x l ih =>
    rw [List.map_cons, List.nodup_cons] at h
    rw [show x :: l = [x] ++ l from rfl, byKey_append, byKey_single, List.map_append]
    split
    · next hx =>
      rw [List.map_cons, List.map_nil, List.singleton_append, List.nodup_cons]
      refine ⟨fun hm => h.1 ?_, ih h.2⟩
      obtain ⟨y, hy, he⟩ := List.mem_map.1 hm
      unfold byKey at hy
      obtain ⟨z, hz, hzy⟩ := List.mem_filterMap.1 hy
      split at hzy
      · next hc =>
        cases hzy
        exact List.mem_map.2 ⟨z, hz, by rw [hc, hx, he]⟩
      · cases hzy
    · simpa using ih h.2

/-- a CSR matrix made by scattering elements with different positions stores no position twice -/
theorem Csr.NoDup.of_cols {C : Csr R} {full : List (ℕ × ℕ × R)}
    (h : (⟨C.np, C.n, C.nnz, C.ptr, C.index, C.value⟩ : Csc R).Cols full)
    (hd : (full.map fun e => (e.1, e.2.1)).Nodup) : C.NoDup :=
  h.nodup fun c _ => byKey_nodup hd c

theorem mem_ite_single {β : Type} {p : Prop} [Decidable p] {a x : β} (h : x ∈ if p then [a] else []) : p ∧ x = a := by
  split at h
  · exact ⟨‹_›, by simpa using h⟩
  · simp at h

theorem nodup_ite_single {β γ : Type} (f : β → γ) {p : Prop} [Decidable p] {a : β} :
    ((if p then [a] else []).map f).Nodup := by split <;> simp

theorem csc2csr_nodup (junk : ℕ → ℕ → ℕ) (vjunk : ℕ → R) {A : Csc R} (h : A.WF) (hd : A.NoDup) :
    Ok (csc2csr junk vjunk A) fun C => C.NoDup := by
  unfold csc2csr
  rw [Ok_bind]
  refine (transposeArrays_spec (Csc.asCsr_wf h) _ _ le_rfl (Nat.le_succ _) junk vjunk).mono ?_
  rintro ⟨ptr, index, value⟩ ⟨_, h2⟩
  rw [Ok_pure]
  have hd' : A.asCsr.NoDup := hd
  exact Csc.Cols.nodup h2 fun c _ => byCol_nodup (fun i hi => hd'.rowList hi) c

theorem msr2csr_nodup [Zero R] [DecidableEq R] (junk : ℕ → ℕ → ℕ) (vjunk : ℕ → R) (nnz : ℕ) {A : Msr R} (h : A.WF)
    (hroom : (concatRows A.n A.nzRow).length ≤ nnz) (hd : (AnyMat.msr nnz A).Distinct) :
    Ok (msr2csr junk vjunk nnz A) fun C => C.NoDup := by
  refine (msr2csr_spec' junk vjunk nnz h hroom).mono ?_
  rintro C ⟨c1, _, _, _, hR⟩
  have : ({ C with nnz := C.ptr.get A.n } : Csr R).NoDup := hR.nodup fun i hi => by
    change i < C.n at hi
    rw [c1] at hi
    unfold Msr.nzRow
    rw [List.map_append, List.nodup_append]
    refine ⟨nodup_ite_single _, emits_nodup _ (by simp) ?_, ?_⟩
    · intro k l a b c x hx y hy he
      rw [List.mem_singleton] at hx hy
      subst hx hy
      have := (hd i hi k l a (by omega) (by omega) c).2 he
      omega
    · intro a ha b hb
      obtain ⟨x, hx, rfl⟩ := List.mem_map.1 ha
      obtain ⟨y, hy, rfl⟩ := List.mem_map.1 hb
      obtain ⟨_, rfl⟩ := mem_ite_single hx
      obtain ⟨k, k1, k2, k3⟩ := emits_mem.1 hy
      rw [List.mem_singleton] at k3
      subst k3
      exact fun he => (hd i hi k k k1 k2 k1 k2).1 he.symm
  exact this

theorem dia2csr_nodup [Zero R] [DecidableEq R] (junk : ℕ → ℕ → ℕ) (vjunk : ℕ → R) {A : Dia R} (h : A.WF)
    (hd : (AnyMat.dia A).Distinct) : Ok (dia2csr junk vjunk A) fun C => C.NoDup := by
  refine (dia2csr_spec' junk vjunk h).mono ?_
  rintro C ⟨c1, c2, hC⟩
  rw [← c1] at hC
  nth_rw 1 [c1, ← c2] at hC
  refine Csr.NoDup.of_cols hC ?_
  unfold Dia.nzList
  refine emits_nodup _ (fun d _ _ => emits_nodup _ (fun i _ _ => nodup_ite_single _) ?_) ?_
  · intro k l a b c x hx y hy he
    obtain ⟨_, rfl⟩ := mem_ite_single hx
    obtain ⟨_, rfl⟩ := mem_ite_single hy
    simp only [Prod.mk.injEq] at he
    omega
  · intro d e a b c x hx y hy he
    obtain ⟨i, i1, i2, hx⟩ := emits_mem.1 hx
    obtain ⟨j, j1, j2, hy⟩ := emits_mem.1 hy
    obtain ⟨_, rfl⟩ := mem_ite_single hx
    obtain ⟨_, rfl⟩ := mem_ite_single hy
    simp only [Prod.mk.injEq, diaRange] at he i1 i2 j1 j2
    have := hd d e (by omega) c (by omega)
    omega

theorem ell2csr_nodup [Zero R] [DecidableEq R] (junk : ℕ → ℕ → ℕ) (vjunk : ℕ → R) {A : Ell R} (h : A.WF)
    (hd : (AnyMat.ell A).Distinct) : Ok (ell2csr junk vjunk A) fun C => C.NoDup := by
  refine (ell2csr_spec' junk vjunk h).mono ?_
  rintro C ⟨c1, c2, hC⟩
  rw [← c1] at hC
  nth_rw 1 [c1, ← c2] at hC
  refine Csr.NoDup.of_cols hC ?_
  unfold Ell.nzList
  simp only [← emits_zero]
  refine emits_nodup _ (fun d _ _ => emits_nodup _ (fun i _ _ => nodup_ite_single _) ?_) ?_
  · intro k l a b c x hx y hy he
    obtain ⟨_, rfl⟩ := mem_ite_single hx
    obtain ⟨_, rfl⟩ := mem_ite_single hy
    simp only [Prod.mk.injEq] at he
    omega
  · intro d e a b c x hx y hy he
    obtain ⟨i, i1, i2, hx⟩ := emits_mem.1 hx
    obtain ⟨j, j1, j2, hy⟩ := emits_mem.1 hy
    obtain ⟨v1, rfl⟩ := mem_ite_single hx
    obtain ⟨v2, rfl⟩ := mem_ite_single hy
    simp only [Prod.mk.injEq] at he
    obtain ⟨rfl, he⟩ := he
    have := hd i i2 d e (by omega) c v1 v2 he
    omega

theorem jad2csr_nodup [Zero R] (junk : ℕ → ℕ → ℕ) (vjunk : ℕ → R) {A : Jad R} (h : A.WF)
    (hd : (AnyMat.jad A).Distinct) : Ok (jad2csr junk vjunk A) fun C => C.NoDup := by
  refine (jad2csr_spec' junk vjunk h).mono ?_
  rintro C ⟨c1, c2, _, hC⟩
  rw [← c1, ← c2] at hC
  refine Csr.NoDup.of_cols hC ?_
  unfold Jad.elems
  refine emits_nodup _ (fun d _ hdm => emits_nodup _ (fun i _ _ => by simp) ?_) ?_
  · intro k l a b c x hx y hy he
    rw [List.mem_singleton] at hx hy
    subst hx hy
    simp only [Prod.mk.injEq] at he
    have hl := h.len d hdm
    have := h.inj _ _ (by omega) (by omega) he.1
    omega
  · intro d e a b c x hx y hy he
    obtain ⟨i, i1, i2, hx⟩ := emits_mem.1 hx
    obtain ⟨j, j1, j2, hy⟩ := emits_mem.1 hy
    rw [List.mem_singleton] at hx hy
    subst hx hy
    simp only [Prod.mk.injEq] at he
    have hl := h.len d (by omega)
    have hl' := h.len e c
    have hij := h.inj _ _ (by omega) (by omega) he.1
    have := hd d e (by omega) c (i - A.ptr.get d) (by omega) (by omega) (by
      rw [show A.ptr.get d + (i - A.ptr.get d) = i by omega, hij, show A.ptr.get e + (j - A.ptr.get e) = j by omega]
      exact he.2)
    omega

theorem bsr2csr_nodup [Zero R] [DecidableEq R] (junk : ℕ → ℕ → ℕ) (vjunk : ℕ → R) {A : Bsr R} (h : A.WF) (hz : A.Padded)
    (hd : (AnyMat.bsr A).Distinct) : Ok (bsr2csr junk vjunk A) fun C => C.NoDup := by
  refine (bsr2csr_spec' junk vjunk h hz).mono ?_
  rintro C ⟨c1, c2, hC⟩
  refine hC.nodup fun r hr => ?_
  have hb : r / A.bnr < A.nr := by
    rw [Nat.div_lt_iff_lt_mul h.hbr]; exact (c1 ▸ hr).trans_le h.hn
  unfold Bsr.nzRow
  refine emits_nodup _ (fun d _ _ => emits_nodup _ (fun i _ _ => nodup_ite_single _) ?_) ?_
  · intro k l a b c x hx y hy he
    obtain ⟨_, rfl⟩ := mem_ite_single hx
    obtain ⟨_, rfl⟩ := mem_ite_single hy
    simp only at he
    omega
  · intro d e a b c x hx y hy he
    obtain ⟨i, i1, i2, hx⟩ := emits_mem.1 hx
    obtain ⟨j, j1, j2, hy⟩ := emits_mem.1 hy
    obtain ⟨v1, rfl⟩ := mem_ite_single hx
    obtain ⟨v2, rfl⟩ := mem_ite_single hy
    have := hd _ hb d e a (by omega) (by omega) c (divmod_unique i2 j2 he).1
    omega

theorem bsc2csr_nodup [Zero R] [DecidableEq R] (junk : ℕ → ℕ → ℕ) (vjunk : ℕ → R) {A : Bsc R} (h : A.WF) (hz : A.Padded)
    (hd : (AnyMat.bsc A).Distinct) : Ok (bsc2csr junk vjunk A) fun C => C.NoDup := by
  refine (bsc2csr_spec' junk vjunk h hz).mono ?_
  rintro C ⟨c1, c2, hC⟩
  refine Csr.NoDup.of_cols hC ?_
  unfold Bsc.nzList Bsc.nzCol Bsc.cell
  have hin : ∀ bj j x, x ∈ emits (A.bptr.get bj) (A.bptr.get (bj + 1)) (fun bc => emits 0 A.bnr fun i =>
      if A.value.get (bc * (A.bnr * A.bnc) + j * A.bnr + i) ≠ 0 then
        [(A.bindex.get bc * A.bnr + i, (bj * A.bnc + j, A.value.get (bc * (A.bnr * A.bnc) + j * A.bnr + i)))] else []) →
      x.2.1 = bj * A.bnc + j := by
    intro bj j x hx
    obtain ⟨bc, _, _, hx⟩ := emits_mem.1 hx
    obtain ⟨i, _, _, hx⟩ := emits_mem.1 hx
    obtain ⟨_, rfl⟩ := mem_ite_single hx
    rfl
  refine emits_nodup _ (fun bj _ hbj => emits_nodup _ (fun j _ hj => emits_nodup _ (fun bc _ _ => emits_nodup _
    (fun i _ _ => nodup_ite_single _) ?_) ?_) ?_) ?_
  · intro k l a b c x hx y hy he
    obtain ⟨_, rfl⟩ := mem_ite_single hx
    obtain ⟨_, rfl⟩ := mem_ite_single hy
    simp only [Prod.mk.injEq] at he
    omega
  · intro d e a b c x hx y hy he
    obtain ⟨i, i1, i2, hx⟩ := emits_mem.1 hx
    obtain ⟨j, j1, j2, hy⟩ := emits_mem.1 hy
    obtain ⟨v1, rfl⟩ := mem_ite_single hx
    obtain ⟨v2, rfl⟩ := mem_ite_single hy
    simp only [Prod.mk.injEq] at he
    have := hd _ hbj d e a (by omega) (by omega) c (divmod_unique i2 j2 he.1).1
    omega
  · intro k l a b c x hx y hy he
    simp only [Prod.mk.injEq] at he
    rw [hin _ _ _ hx, hin _ _ _ hy] at he
    omega
  · intro k l a b c x hx y hy he
    obtain ⟨i, i1, i2, hx⟩ := emits_mem.1 hx
    obtain ⟨j, j1, j2, hy⟩ := emits_mem.1 hy
    simp only [Prod.mk.injEq] at he
    rw [hin _ _ _ hx, hin _ _ _ hy] at he
    have := (divmod_unique i2 j2 he.2).1
    omega

theorem vbr2csr_nodup [Zero R] [DecidableEq R] (junk : ℕ → ℕ → ℕ) (vjunk : ℕ → R) {A : Vbr R} (h : A.WF)
    (hd : (AnyMat.vbr A).Distinct) : Ok (vbr2csr junk vjunk A) fun C => C.NoDup := by
  refine (vbr2csr_spec' junk vjunk h).mono ?_
  rintro C ⟨c1, c2, hC⟩
  refine hC.nodup fun r hr => ?_
  unfold Vbr.nzOf
  refine emits_nodup _ (fun bi _ hbi => ?_) ?_
  · split
    · unfold Vbr.nzRow
      refine emits_nodup _ (fun d _ _ => emits_nodup _ (fun i _ _ => nodup_ite_single _) ?_) ?_
      · intro k l a b c x hx y hy he
        obtain ⟨_, rfl⟩ := mem_ite_single hx
        obtain ⟨_, rfl⟩ := mem_ite_single hy
        simp only at he
        omega
      · intro d e a b c x hx y hy he
        obtain ⟨i, i1, i2, hx⟩ := emits_mem.1 hx
        obtain ⟨j, j1, j2, hy⟩ := emits_mem.1 hy
        obtain ⟨v1, rfl⟩ := mem_ite_single hx
        obtain ⟨v2, rfl⟩ := mem_ite_single hy
        simp only [Vbr.wd] at he i2 j2
        have hx1 := h.idx d (h.bptr.lt_nnz hbi (by omega))
        have hx2 := h.idx e (h.bptr.lt_nnz hbi c)
        have hu := h.col.unique hx1 hx2 (r := A.col.get (A.bindex.get d) + i) (by omega) (by omega) (by omega) (by omega)
        have := hd _ hbi d e a (by omega) (by omega) c hu
        omega
    · simp
  · intro k l a b c x hx y hy he
    split at hx
    · split at hy
      · have := h.row.unique (show k < A.nr by omega) c (r := r) (by omega) (by omega) (by omega) (by omega)
        omega
      · simp at hy
    · simp at hx

theorem coo2csr_nodup [Zero R] (junk : ℕ → ℕ → ℕ) (vjunk : ℕ → R) {A : Coo R} (h : A.WF)
    (hd : (AnyMat.coo A).Distinct) : Ok (coo2csr junk vjunk A) fun r => r.2.NoDup := by
  refine (coo2csr_spec' junk vjunk h).mono ?_
  rintro ⟨B, C⟩ ⟨g, g1, b1, b2, c1, c2, c3, r1, r2, r3, p1, p2, p3, p4, p5, x1, x2, x3⟩
  simp only at b1 b2 c1 c2 c3 r1 r2 r3 p1 p2 p3 p4 p5 x1 x2 x3
  obtain ⟨_, hin⟩ := h.rearranged (s := (B.row, B.col, B.value)) g1 r1 r2 r3
  have hp : PtrWF A.n A.nnz C.ptr := ⟨p1, p2, p4, p3⟩
  intro i hi k l k1 k2 l1 l2 he
  change i < C.n at hi
  rw [c1] at hi
  change C.index.get k = C.index.get l at he
  have hk := hp.lt_nnz hi k2
  have hl := hp.lt_nnz hi l2
  rw [(x3 k hk).1, (x3 l hl).1] at he
  have e1 := (p5 i hi k hk).1 ⟨k1, k2⟩
  have e2 := (p5 i hi l hl).1 ⟨l1, l2⟩
  rw [r1.2] at e1 e2
  rw [r2.2, r2.2] at he
  exact g.injective (hd _ _ (hin k hk) (hin l hl) (e1.trans e2.symm) he)

theorem toCsr_nodup [AddCommMonoid R] [DecidableEq R] (J : ConvJunk R) (A : AnyMat R) (h : A.WF) (hd : A.Distinct) :
    Ok (toCsr J A) fun r => r.2.NoDup := by
  cases A with
  | csr A => exact ⟨_, rfl, hd⟩
  | csc A =>
    obtain ⟨C, e, c⟩ := csc2csr_nodup J.i1 J.v1 h.1 hd
    exact ⟨_, by rw [toCsr, e]; rfl, c⟩
  | msr nnz A =>
    obtain ⟨C, e, c⟩ := msr2csr_nodup J.i1 J.v1 nnz h.1 (by
      have := List.length_filter_le (fun i => decide (A.value.get i ≠ 0)) (List.range A.n)
      rw [List.length_range] at this
      rw [Msr.nzRow_len h.1]
      have := h.2
      omega) hd
    exact ⟨_, by rw [toCsr, e]; rfl, c⟩
  | dia A =>
    obtain ⟨C, e, c⟩ := dia2csr_nodup J.i1 J.v1 h hd
    exact ⟨_, by rw [toCsr, e]; rfl, c⟩
  | ell A =>
    obtain ⟨C, e, c⟩ := ell2csr_nodup J.i1 J.v1 h hd
    exact ⟨_, by rw [toCsr, e]; rfl, c⟩
  | jad A =>
    obtain ⟨C, e, c⟩ := jad2csr_nodup J.i1 J.v1 h.1 hd
    exact ⟨_, by rw [toCsr, e]; rfl, c⟩
  | bsr A =>
    obtain ⟨C, e, c⟩ := bsr2csr_nodup J.i1 J.v1 h.1 h.2 hd
    exact ⟨_, by rw [toCsr, e]; rfl, c⟩
  | bsc A =>
    obtain ⟨C, e, c⟩ := bsc2csr_nodup J.i1 J.v1 h.1 h.2 hd
    exact ⟨_, by rw [toCsr, e]; rfl, c⟩
  | vbr A =>
    obtain ⟨C, e, c⟩ := vbr2csr_nodup J.i1 J.v1 h hd
    exact ⟨_, by rw [toCsr, e]; rfl, c⟩
  | dns A =>
    obtain ⟨C, e, _, c, _⟩ := dns2csr_spec J.i1 J.v1 A h.1
    exact ⟨_, by rw [toCsr, e]; rfl, c⟩
  | coo A =>
    obtain ⟨C, e, c⟩ := coo2csr_nodup J.i1 J.v1 h hd
    exact ⟨_, by rw [toCsr, e]; rfl, c⟩

end Lis
