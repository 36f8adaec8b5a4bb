import Verif.Props.AnyDiag

/-!
# C12: shifting the diagonal, in every storage format
-/

namespace Lis
open Finset
variable {R : Type}

theorem Csc.WF.value {A : Csc R} (h : A.WF) {v : Arr R} (hv : v.size = A.value.size) :
    ({ A with value := v } : Csc R).WF := ⟨h.ptr, h.isz, by rw [hv]; exact h.vsz, h.idx⟩

theorem shiftDiagonalCsc_flip [Sub R] (A : Csc R) (sigma : R) :
    shiftDiagonalCsc A sigma = (shiftDiagonalCsr A.flip sigma).map fun B => { A with value := B.value } := by
  unfold shiftDiagonalCsc shiftDiagonalCsr
  simp only [Csc.flip]
  generalize (loop 0 A.np A.value _ : Option (Arr R)) = m
  cases m <;> rfl

theorem Ok_map {α β : Type} {m : Option α} {f : α → β} {Q : β → Prop} (h : Ok m fun a => Q (f a)) : Ok (m.map f) Q := by
  obtain ⟨a, h1, h2⟩ := h
  exact ⟨f a, by rw [h1]; rfl, h2⟩

/-- **C12 (all formats).** `lis_matrix_shift_diagonal` subtracts `sigma` from `A(i,i)` for every row whose diagonal element
has a place in the storage, and changes nothing else: rows without one are silently left as they are.  The result is
again a well-formed matrix of the same format. -/
theorem AnyMat.shiftDiagonal_spec [AddCommGroup R] {A : AnyMat R} (h : A.WF) (hd : A.Distinct) (hr : A.DiagReachable)
    (hp : A.Packed) (sigma : R) :
    Ok (A.shiftDiagonal sigma) fun B => B.WF ∧ B.n = A.n ∧ B.fmt = A.fmt ∧ ∀ i j, i < A.n → j < A.n →
      (i = j → A.StoresDiag i → B.entry i j = A.entry i j - sigma) ∧
      (¬ (i = j ∧ A.StoresDiag i) → B.entry i j = A.entry i j) := by
  cases A with
  | csr A =>
    obtain ⟨h, hnp⟩ := h
    show Ok ((shiftDiagonalCsr A sigma).bind _) _
    rw [Ok_obind]
    refine (shiftDiagonalCsr_spec h sigma).mono ?_
    rintro B ⟨h1, h2, h3, h4⟩
    rw [Ok_pure]
    refine ⟨⟨h1, by omega⟩, h2, rfl, fun i j hi hj => ⟨?_, ?_⟩⟩
    · rintro rfl hst
      have := (h4 i i hi).1 hst
      rwa [if_pos rfl] at this
    · intro hn
      show B.entry i j = A.entry i j
      by_cases hst : A.StoresDiag i
      · rw [(h4 i j hi).1 hst, if_neg fun hij => hn ⟨hij, hst⟩, sub_zero]
      · exact (h4 i j hi).2 hst
  | csc A =>
    obtain ⟨h, hnp⟩ := h
    show Ok ((shiftDiagonalCsc A sigma).bind _) _
    rw [Ok_obind, shiftDiagonalCsc_flip]
    refine Ok_map ?_
    have key : Ok (shiftDiagonalCsr A.flip sigma) fun B => B.ptr = A.ptr ∧ B.index = A.index := by
      have hok := shiftDiagonalCsr_spec (Csc.flip_wf h) sigma
      obtain ⟨B, hB, -⟩ := hok
      refine ⟨B, hB, ?_⟩
      unfold shiftDiagonalCsr at hB
      obtain ⟨v, -, hv⟩ := Option.bind_eq_some_iff.1 hB
      obtain rfl := Option.some.inj hv
      exact ⟨rfl, rfl⟩
    refine (Ok.conj (shiftDiagonalCsr_spec (Csc.flip_wf h) sigma) key).mono ?_
    rintro B ⟨⟨h1, h2, h3, h4⟩, h5, h6⟩
    rw [Ok_pure]
    have hB : ∀ i j, ({ A with value := B.value } : Csc R).entry i j = B.entry j i := by
      intro i j
      unfold Csc.entry Csr.entry
      simp only [h5, h6]
    have h1v := h1.vsz
    have hnnz : B.nnz = A.nnz := by
      rw [← h1.ptr.last, ← h.ptr.last, h5, h2]; rfl
    refine ⟨⟨⟨h.ptr, h.isz, by rw [← hnnz]; exact h1v, h.idx⟩, hnp⟩, rfl, rfl, fun i j hi hj => ?_⟩
    have hi' : i < A.flip.n := by show i < A.np; rw [hnp]; exact hi
    have hj' : j < A.flip.n := by show j < A.np; rw [hnp]; exact hj
    refine ⟨?_, ?_⟩
    · rintro rfl hst
      have := (h4 i i hi').1 hst
      rw [if_pos rfl, ← hB] at this
      exact this
    · intro hn
      show ({ A with value := B.value } : Csc R).entry i j = A.entry i j
      rw [hB]
      by_cases hst : A.flip.StoresDiag j
      · rw [(h4 j i hj').1 hst, if_neg fun (hij : j = i) => hn ⟨hij.symm, hij ▸ hst⟩, sub_zero]; rfl
      · exact (h4 j i hj').2 hst
  | msr z A =>
    have hvs := h.1.vsz
    have hst := Msr.diagStore h.1 hd
    show Ok ((shiftDiagonalMsr A sigma).bind _) _
    unfold shiftDiagonalMsr
    rw [Ok_obind, Ok_bind]
    refine (Ok_loop_upd1 (fun i => i) (fun _ t => t - sigma) (fun x x' _ _ _ _ he => he) ?_).mono ?_
    · intro i y _ hi hy
      rw [Ok_subAt]
      exact ⟨by omega, rfl⟩
    · intro v hv
      simp only [Ok_pure]
      obtain ⟨ha, he⟩ := hst.shiftPost (v := v) (sigma := sigma) (hv.congr fun k g => by
        constructor
        · rintro ⟨i, p, ⟨h1, rfl⟩, rfl, rfl⟩; exact ⟨_, Nat.zero_le _, h1, rfl, rfl⟩
        · rintro ⟨i, -, h1, rfl, rfl⟩; exact ⟨_, _, ⟨h1, rfl⟩, rfl, rfl⟩)
      exact ⟨⟨h.1.value ha.1, h.2⟩, rfl, rfl, fun i j hi hj => ⟨fun hij _ => (he i j hi).1 hij ⟨i, hi, rfl⟩,
        fun hn => (he i j hi).2 fun hc => hn ⟨hc.1, trivial⟩⟩⟩
  | dia A =>
    have hvs := Dia.WF.vsz h
    have hst := Dia.diagStore h hd hr
    show Ok ((shiftDiagonalDia A sigma).bind _) _
    unfold shiftDiagonalDia
    rw [Ok_obind, Ok_bind]
    refine (Ok_findDiag0 h hr).mono ?_
    rintro e ⟨e1, e2⟩
    rw [Ok_bind]
    refine (Ok_loop_upd1 (fun i => e * A.n + i) (fun _ t => t - sigma) (fun x x' _ _ _ _ he => by omega) ?_).mono ?_
    · intro i y _ hi hy
      have := flat_lt e1 hi
      rw [Ok_subAt]
      exact ⟨by omega, rfl⟩
    · intro v hv
      simp only [Ok_pure]
      obtain ⟨ha, he⟩ := hst.shiftPost (v := v) (sigma := sigma) (hv.congr fun k g => by
        constructor
        · rintro ⟨i, p, ⟨h1, e', f1, f2, rfl⟩, rfl, rfl⟩
          obtain rfl := hd e' e f1 e1 (f2.trans e2.symm)
          exact ⟨i, Nat.zero_le _, h1, rfl, rfl⟩
        · rintro ⟨i, -, h1, rfl, rfl⟩; exact ⟨i, _, ⟨h1, e, e1, e2, rfl⟩, rfl, rfl⟩)
      refine ⟨⟨Dia.WF.isz (A := A) h, by show _ ≤ v.size; rw [ha.1]; exact hvs⟩, rfl, rfl, fun i j hi hj =>
        ⟨fun hij _ => (he i j hi).1 hij ⟨_, hi, e, e1, e2, rfl⟩, fun hn => (he i j hi).2 fun hc => hn ⟨hc.1, hr⟩⟩⟩
  | ell A =>
    have hvs := Ell.WF.vsz h
    have his := Ell.WF.isz h
    have hst := Ell.diagStore h hr
    rw [Nat.mul_comm] at hvs his
    show Ok ((shiftDiagonalEll A sigma).bind _) _
    unfold shiftDiagonalEll
    rw [Ok_obind, Ok_bind]
    refine (Ok_loop_pairs (P := fun x i p => i = x ∧ A.DiagAt i p) (q := fun _ p => p)
      (g := fun _ _ t => t - sigma) (hst.injShift.sub ?_) ?_ ?_).mono ?_
    · rintro i p ⟨x, -, -, -, hp⟩; exact hp
    · rintro x x' i p - - - - ⟨rfl, -⟩ ⟨h1, -⟩; exact h1
    · intro i y _ hi hy
      refine Ok_loopB (fun j w => w = y ∧ ∀ k, k < j → A.index.get (k * A.n + i) ≠ i) ⟨rfl, fun k hk => by omega⟩ ?_ ?_
      · rintro j w - hj ⟨rfl, hno⟩
        have hl := flat_lt hj hi
        simp only [Ok_bind, Ok_rd, Ok_ite, Ok_subAt]
        refine ⟨by omega, fun hc => ?_, fun hc => ?_⟩
        · simp only [Ok_pure, if_true]
          refine ⟨by omega, ?_⟩
          have hD : A.DiagAt i (j * A.n + i) := ⟨hi, j, hj, hc.symm, hno, rfl⟩
          refine (Upd.set w (j * A.n + i) (fun t => t - sigma) rfl).congr fun k g => ?_
          constructor
          · rintro ⟨i', p, ⟨rfl, hp⟩, rfl, rfl⟩; exact ⟨hst.uniq _ _ _ hp hD, rfl⟩
          · rintro ⟨rfl, rfl⟩; exact ⟨i, _, ⟨rfl, hD⟩, rfl, rfl⟩
        · simp only [Ok_pure, Bool.false_eq_true, if_false]
          refine ⟨trivial, fun k hk => ?_⟩
          by_cases hkj : k = j
          · subst hkj; exact fun he => hc he.symm
          · exact hno k (by omega)
      · rintro w ⟨rfl, hno⟩
        refine Upd.none _ _ _ ?_
        rintro i' p ⟨rfl, -, k, k1, k2, -⟩
        exact hno k (by omega) k2
    · intro v hv
      simp only [Ok_pure]
      obtain ⟨ha, he⟩ := hst.shiftPost (v := v) (sigma := sigma) (hv.pcongr fun i p =>
        ⟨fun hp => ⟨i, Nat.zero_le _, hp.1, rfl, hp⟩, fun ⟨x, _, _, _, hp⟩ => hp⟩)
      have hiff : ∀ i, i < A.n → ((AnyMat.ell A).StoresDiag i ↔ ∃ p, A.DiagAt i p) := by
        intro i hi
        constructor
        · intro hex
          classical
          have := Nat.find_spec hex
          exact ⟨_, hi, Nat.find hex, this.1, this.2, fun l hl hc' => Nat.find_min hex hl ⟨hl.trans this.1, hc'⟩, rfl⟩
        · rintro ⟨p, -, k, k1, k2, -⟩; exact ⟨k, k1, k2⟩
      refine ⟨⟨Ell.WF.isz (A := A) h, by show _ ≤ v.size; rw [ha.1]; exact Ell.WF.vsz (A := A) h, Ell.WF.idx (A := A) h⟩, rfl, rfl, fun i j hi hj =>
        ⟨fun hij hs => (he i j hi).1 hij ((hiff i hi).1 hs), fun hn => (he i j hi).2 fun hc => hn ⟨hc.1, (hiff i hi).2 hc.2⟩⟩⟩
  | jad A =>
    have hst := Jad.diagStore h.1 hd
    show Ok ((shiftDiagonalJad A sigma).bind _) _
    unfold shiftDiagonalJad
    rw [Ok_obind, Ok_bind]
    refine (Ok_jadDiagScan h.1 hd hst.injShift (hst.stepShift sigma)).mono ?_
    intro v hv
    simp only [Ok_pure]
    obtain ⟨ha, he⟩ := hst.shiftPost hv
    have hiff : ∀ i, (AnyMat.jad A).StoresDiag i ↔ ∃ p, A.DiagAt i p := by
      intro i
      constructor
      · rintro ⟨e, k, e1, e2, e3, e4⟩
        exact ⟨A.ptr.get e + k, e, e1, by omega, by omega, by rwa [show A.ptr.get e + k - A.ptr.get e = k by omega], e4⟩
      · rintro ⟨p, e, e1, e2, e3, e4, e5⟩
        exact ⟨e, p - A.ptr.get e, e1, by omega, e4, by rwa [show A.ptr.get e + (p - A.ptr.get e) = p by omega]⟩
    exact ⟨⟨h.1.value ha.1, h.2⟩, rfl, rfl, fun i j hi hj => ⟨fun hij hs => (he i j hi).1 hij ((hiff i).1 hs),
      fun hn => (he i j hi).2 fun hc => hn ⟨hc.1, (hiff i).2 hc.2⟩⟩⟩
  | bsr A =>
    have hst := Bsr.diagStore h.1 hd
    show Ok ((shiftDiagonalBsr A sigma).bind _) _
    unfold shiftDiagonalBsr
    rw [Ok_obind, Ok_bind]
    refine (Ok_bsrDiagScan h.1 hr hd hst.injShift (hst.stepShift sigma)).mono ?_
    intro v hv
    simp only [Ok_pure]
    obtain ⟨ha, he⟩ := hst.shiftPost hv
    have hiff : ∀ i, i < A.n → ((AnyMat.bsr A).StoresDiag i ↔ ∃ p, A.DiagAt i p) := by
      intro i hi
      constructor
      · rintro ⟨b, b1, b2, b3⟩
        exact ⟨_, hi, b, b1, b2, b3, rfl⟩
      · rintro ⟨p, -, b, b1, b2, b3, -⟩
        exact ⟨b, b1, b2, b3⟩
    refine ⟨⟨h.1.value ha.1, ⟨h.2.fit, ?_⟩⟩, rfl, rfl, fun i j hi hj => ⟨fun hij hs => (he i j hi).1 hij ((hiff i hi).1 hs),
      fun hn => (he i j hi).2 fun hc => hn ⟨hc.1, (hiff i hi).2 hc.2⟩⟩⟩
    intro br hbr bc b1 b2 i j hi hj ho
    show v.get _ = 0
    rw [ha.2, h.2.zero br hbr bc b1 b2 i j hi hj ho]
    rintro i' ⟨h1, b, c1, c2, c3, h3⟩
    have hbr' := h.1.hbr
    have hbc' := h.1.hbc
    obtain ⟨rfl, e2, e3⟩ := blk_inj hi hj (Nat.mod_lt _ hbr') (Nat.mod_lt _ hbc') h3
    have h4 := h.1.bptr.row_unique hbr (div_lt_of_cover hbr' h.1.hn h1) b1 b2 c1 c2
    have h5 : br * A.bnr + i = i' := by rw [h4, e3, Nat.div_add_mod']
    have h6 : A.bindex.get bc * A.bnc + j = i' := by rw [c3, e2, Nat.div_add_mod']
    rw [h5, h6] at ho
    have : A.n ≤ i' := ho.elim id id
    omega
  | bsc A =>
    have hst := Bsc.diagStore h.1 h.2.cover hd
    show Ok ((shiftDiagonalBsc A sigma).bind _) _
    unfold shiftDiagonalBsc
    rw [Ok_obind, Ok_bind]
    refine (Ok_bscDiagScan h.1 h.2.cover hr.1 hr.2 hd hst.injShift (hst.stepShift sigma)).mono ?_
    intro v hv
    simp only [Ok_pure]
    obtain ⟨ha, he⟩ := hst.shiftPost hv
    have hiff : ∀ i, i < A.n → ((AnyMat.bsc A).StoresDiag i ↔ ∃ p, A.DiagAt i p) := by
      intro i hi
      constructor
      · rintro ⟨b, b1, b2, b3⟩
        exact ⟨_, hi, b, b1, b2, b3, rfl⟩
      · rintro ⟨p, -, b, b1, b2, b3, -⟩
        exact ⟨b, b1, b2, b3⟩
    refine ⟨⟨h.1.value ha.1, ⟨h.2.cover, h.2.fit, ?_⟩⟩, rfl, rfl, fun i j hi hj => ⟨fun hij hs => ?_,
      fun hn => ?_⟩⟩
    · intro bj hbj bc b1 b2 i j hi hj ho
      show v.get _ = 0
      rw [ha.2, h.2.zero bj hbj bc b1 b2 i j hi hj ho]
      rintro i' ⟨h1, b, c1, c2, c3, h3⟩
      have hbr' := h.1.hbr
      have hbc' := h.1.hbc
      obtain ⟨rfl, e2, e3⟩ := blk_inj hi hj (Nat.mod_lt _ hbr') (Nat.mod_lt _ hbc') h3
      have h4 := h.1.bptr.row_unique hbj (div_lt_of_cover hbc' h.2.cover h1) b1 b2 c1 c2
      have h5 : bj * A.bnc + j = i' := by rw [h4, e2, Nat.div_add_mod']
      have h6 : A.bindex.get bc * A.bnr + i = i' := by rw [c3, e3, Nat.div_add_mod']
      rw [h5, h6] at ho
      have : A.n ≤ i' := ho.elim id id
      omega
    · have := (he i j hi).1 hij ((hiff i hi).1 hs)
      have hj' : j < A.n := hj
      simp only [if_pos hj'] at this
      exact this
    · have := (he i j hi).2 fun hc => hn ⟨hc.1, (hiff i hi).2 hc.2⟩
      have hj' : j < A.n := hj
      simp only [if_pos hj'] at this
      exact this
  | vbr A =>
    have hst := Vbr.diagStore h hp hd
    obtain ⟨hn, s, hs0, hu⟩ := hr
    show Ok ((shiftDiagonalVbr A sigma).bind _) _
    unfold shiftDiagonalVbr
    rw [Ok_obind, Ok_bind]
    refine (Ok_vbrDiagScan h hn hs0 hu hd hst.injShift (hst.stepShift sigma)).mono ?_
    intro v hv
    simp only [Ok_pure]
    obtain ⟨ha, he⟩ := hst.shiftPost hv
    have hiff : ∀ i, (AnyMat.vbr A).StoresDiag i ↔ ∃ p, A.DiagAt i p := by
      intro i
      constructor
      · rintro ⟨r, b, e1, e2, e3, e4, e5, e6⟩
        exact ⟨_, r, b, ⟨e1, e3, e4, e2.1, e2.2, e5, e6⟩, rfl⟩
      · rintro ⟨p, r, b, e, -⟩
        exact ⟨r, b, e.hr, ⟨e.i1, e.i2⟩, e.b1, e.b2, e.j1, e.j2⟩
    exact ⟨Vbr.WF.value h ha.1, rfl, rfl, fun i j hi hj => ⟨fun hij hs => (he i j hi).1 hij ((hiff i).1 hs),
      fun hn => (he i j hi).2 fun hc => hn ⟨hc.1, (hiff i).2 hc.2⟩⟩⟩
  | dns A =>
    have hvs := h.1.vsz
    have hnp := h.2
    have hst := Dns.diagStore h.1 h.2
    rw [hnp] at hvs
    show Ok ((shiftDiagonalDns A sigma).bind _) _
    unfold shiftDiagonalDns
    rw [Ok_obind, Ok_bind]
    refine (Ok_loop_upd1 (fun i => i * A.n + i) (fun _ t => t - sigma)
      (fun x x' _ h2 _ h4 he => (flat_inj h2 h4 he).1) ?_).mono ?_
    · intro i y _ hi hy
      have := flat_lt hi hi
      rw [Ok_subAt]
      exact ⟨by omega, rfl⟩
    · intro v hv
      simp only [Ok_pure]
      obtain ⟨ha, he⟩ := hst.shiftPost (v := v) (sigma := sigma) (hv.congr fun k g => by
        constructor
        · rintro ⟨i, p, ⟨h1, rfl⟩, rfl, rfl⟩; exact ⟨i, Nat.zero_le _, h1, rfl, rfl⟩
        · rintro ⟨i, -, h1, rfl, rfl⟩; exact ⟨i, _, ⟨h1, rfl⟩, rfl, rfl⟩)
      exact ⟨⟨⟨by show _ ≤ v.size; rw [ha.1]; exact h.1.vsz⟩, h.2⟩, rfl, rfl, fun i j hi hj =>
        ⟨fun hij _ => (he i j hi).1 hij ⟨_, hi, rfl⟩, fun hn => (he i j hi).2 fun hc => hn ⟨hc.1, trivial⟩⟩⟩
  | coo A =>
    have hst := Coo.diagStore h hd
    have hrs := Coo.WF.rsz h
    have hcs := Coo.WF.csz h
    have hvs := Coo.WF.vsz h
    show Ok ((shiftDiagonalCoo A sigma).bind _) _
    unfold shiftDiagonalCoo
    rw [Ok_obind, Ok_bind]
    refine (Ok_loop_pairs (P := fun x i p => p = x ∧ A.DiagAt i p) (q := fun _ p => p)
      (g := fun _ _ t => t - sigma) (hst.injShift.sub ?_) ?_ ?_).mono ?_
    · rintro i p ⟨x, -, -, -, hp⟩; exact hp
    · rintro x x' i p - - - - ⟨rfl, -⟩ ⟨h1, -⟩; exact h1
    · intro x y _ hx hy
      simp only [Ok_bind, Ok_rd, Ok_ite]
      refine ⟨by omega, by omega, fun hc => ?_, fun hc => ?_⟩
      · have hD : A.DiagAt (A.row.get x) x := ⟨hx, rfl, hc.symm⟩
        rw [Ok_subAt]
        refine ⟨by omega, (Upd.set y x (fun t => t - sigma) rfl).congr fun k g => ?_⟩
        constructor
        · rintro ⟨i, p, ⟨rfl, hp⟩, rfl, rfl⟩; exact ⟨rfl, rfl⟩
        · rintro ⟨rfl, rfl⟩; exact ⟨_, k, ⟨rfl, hD⟩, rfl, rfl⟩
      · rw [Ok_pure]
        refine Upd.none _ _ _ ?_
        rintro i p ⟨rfl, hp⟩
        exact hc (hp.2.1.trans hp.2.2.symm)
    · intro v hv
      simp only [Ok_pure]
      obtain ⟨ha, he⟩ := hst.shiftPost (v := v) (sigma := sigma) (hv.pcongr fun i p =>
        ⟨fun hp => ⟨p, Nat.zero_le _, hp.1, rfl, hp⟩, fun ⟨x, _, _, _, hp⟩ => hp⟩)
      exact ⟨⟨hrs, hcs, by show _ ≤ v.size; rw [ha.1]; exact hvs, Coo.WF.row (A := A) h, Coo.WF.col (A := A) h⟩, rfl, rfl,
        fun i j hi hj => ⟨fun hij hs => (he i j hi).1 hij hs, fun hn => (he i j hi).2 hn⟩⟩

end Lis
