import Verif.Lemmas.MpiComm
import Verif.Lemmas.MpiG2l

/-! The distributed set-up, the halo exchange and the reduction -/

namespace Lis

variable {R : Type}

/-! ### the communication table -/

/-- the communication table of rank `r` with `n` rows -/
structure CommOk (P : ℕ) (rg : ℕ → ℕ) (L : ℕ → List ℕ) (r n slack : ℕ) (ct : CommTable R) : Prop where
  pad : ct.pad = 0
  tot : ct.neibpetot = (nbrs P rg L r).length
  nsz : (nbrs P rg L r).length ≤ ct.neibpe.size
  neib : Filled ct.neibpe.get (nbrs P rg L r)
  iptr : PtrOf (nbrs P rg L r) (want rg L r) ct.import_ptr
  eptr : PtrOf (nbrs P rg L r) (fun s => want rg L s r) ct.export_ptr
  impsz : ct.import_index.size = (L r).length + slack
  imp : ∀ i, i < (L r).length → ct.import_index.get i = n + i
  exisz : ((nbrs P rg L r).flatMap fun s => want rg L s r).length ≤ ct.export_index.size
  exi : Filled ct.export_index.get ((nbrs P rg L r).flatMap fun s => (want rg L s r).map (· - rg r))
  ws : ct.ws.size = ((nbrs P rg L r).flatMap fun s => want rg L s r).length
  wr : ct.wr.size = (L r).length

theorem length_flatMap_map {α β : Type} (N : List ℕ) (f : ℕ → List α) (g : ℕ → α → β) :
    (N.flatMap fun s => (f s).map (g s)).length = (N.flatMap f).length := by
  simp [List.length_flatMap]

theorem commFinish_talks {P gn : ℕ} {rg : ℕ → ℕ} {L : ℕ → List ℕ} (h : Halo P gn rg L) (J : CommJunk R) {r n : ℕ} (hr : r < P)
    {ranges imp im ex : Arr ℕ} (hs : P + 1 ≤ ranges.size) (hrg : ∀ k, k ≤ P → ranges.get k = rg k)
    (himps : imp.size = (L r).length + J.slack) (himp : Filled imp.get (L r)) (hims : P ≤ im.size)
    (him : ∀ s, s < P → im.get s = (want rg L r s).length) (hexs : P ≤ ex.size)
    (hex : ∀ s, s < P → ex.get s = (want rg L s r).length) :
    (commFinish J P ranges n (L r).length 0 imp im ex).Talks (nbrs P rg L r)
      (fun s => .ints ((want rg L r s).map (· - rg s))) (nbrs P rg L r) (fun s => .ints ((want rg L s r).map (· - rg r)))
      fun q => ∃ ct, q = .ret ct ∧ CommOk P rg L r n J.slack ct := by
  obtain ⟨⟨tot, exc⟩, t1, t2, t3⟩ := commTotals_spec hims hexs him hex
  have hN : ((List.range P).filter fun i => (want rg L r i).length ≠ 0 ∨ (want rg L i r).length ≠ 0) = nbrs P rg L r := by
    unfold nbrs
    refine List.filter_congr fun i _ => ?_
    simp
  rw [hN] at t2 t3
  dsimp only at t2 t3
  obtain ⟨⟨neib, iptr, eptr⟩, n1, n2, n3, n4, n5⟩ := commNeib_spec J hims hexs him hex (N := nbrs P rg L r) rfl
  dsimp only at n2 n3 n4 n5
  obtain ⟨ow, how⟩ : ∃ ow : ℕ → ℕ, ∀ j, j < gn → ow j < P ∧ Owns rg (ow j) j := by
    have : ∀ j, j < gn → ∃ s, s < P ∧ Owns rg s j := fun j hj => h.part.owner hj
    choose! ow how using this
    exact ⟨ow, how⟩
  obtain ⟨imp1, r1, r2, r3⟩ := commRelative_spec h.part hs hrg (h.incr r hr) (h.lt r hr) (by omega) himp how
  have hLmap : (L r).map (fun j => j - rg (ow j)) = (nbrs P rg L r).flatMap fun s => (want rg L r s).map (· - rg s) := by
    conv_lhs => rw [← h.flat hr, List.map_flatMap]
    refine List.flatMap_congr fun s hsn => ?_
    refine List.map_congr_left fun j hj => ?_
    rw [ownedBy_mem] at hj
    have hs' : s < P := (nbrs_nodup P rg L r).2 s hsn
    have h1 := how j (h.lt r hr j hj.1)
    rw [h.part.owner_unique h1.1 hs' h1.2 hj.2]
  rw [hLmap] at r3
  have hlen : ((nbrs P rg L r).flatMap fun s => (want rg L r s).map (· - rg s)).length = (L r).length := by
    rw [← hLmap, List.length_map]
  have hexc : exc = ((nbrs P rg L r).flatMap fun s => want rg L s r).length := by
    rw [t3, List.length_flatMap]
  have hidx := commIndices_talks (R := R) (N := nbrs P rg L r) (f := fun s => (want rg L r s).map (· - rg s))
    (g := fun s => (want rg L s r).map (· - rg r)) (exi := .malloc exc J.exi) n3 (by omega) (n4.map (fun s _ => by simp))
    (n5.map (fun s _ => by simp)) r3 (by omega) (by
      rw [length_flatMap_map _ (fun s => want rg L s r) (fun s j => j - rg r)]; simp [hexc])
  unfold commFinish
  rw [Proc.lift_bind t1]
  dsimp only
  subst t2
  rw [Proc.lift_bind n1]
  dsimp only
  rw [Proc.lift_bind r1]
  refine (hidx.bind _).mono ?_
  rintro q ⟨exi, rfl, e1, e2⟩
  obtain ⟨imp2, m1, m2, m3⟩ : Ok (loop 0 (L r).length imp1 fun i (a : Arr ℕ) => a.wr i (n + i)) fun a =>
      a.size = imp1.size ∧ ∀ i, i < (L r).length → a.get i = n + i := by
    refine Ok_loop_fill (fun i => n + i) (fun i y _ hi hs _ _ => ?_) ?_
    · rw [Ok_wr]
      exact ⟨by omega, rfl⟩
    · intro a h1 h2 _
      exact ⟨h1, fun i hi => h2 i (by omega) hi⟩
  have hps := n5.size
  have hps' := n4.size
  rw [Proc.lift_bind m1, Proc.lift_bind (Arr.rd_eq (by omega)), Proc.lift_bind (Arr.rd_eq (by omega))]
  refine ⟨_, rfl, ⟨rfl, rfl, show (nbrs P rg L r).length ≤ neib.size by omega, n3, n4, n5,
    show imp2.size = _ by omega, m3, ?_, e2, ?_, ?_⟩⟩
  · simp [e1, hexc]
  · simp only [Arr.malloc_size]; rw [n5.last]
  · simp only [Arr.malloc_size]; rw [n4.last, h.flat hr]

instance {α : Type} [Nonempty α] : Nonempty (Arr α) := ⟨⟨0, fun _ => Classical.arbitrary α⟩⟩

theorem CommJunk.nonempty (J : CommJunk R) : Nonempty (CommTable R) :=
  ⟨⟨0, 0, .malloc 0 J.im, .malloc 0 J.im, .malloc 0 J.im, .malloc 0 J.im, .malloc 0 J.im, .malloc 0 J.ws, .malloc 0 J.wr⟩⟩

theorem commtableCreate_collective {P gn : ℕ} {rg : ℕ → ℕ} {L : ℕ → List ℕ} (h : Halo P gn rg L) (J : ℕ → CommJunk R)
    {ranges l2g : ℕ → Arr ℕ} {n np : ℕ → ℕ} (hs : ∀ r, r < P → P + 1 ≤ (ranges r).size)
    (hrg : ∀ r, r < P → ∀ k, k ≤ P → (ranges r).get k = rg k) (hl : ∀ r, r < P → (L r).length ≤ (l2g r).size)
    (hf : ∀ r, r < P → Filled (l2g r).get (L r)) (hnp : ∀ r, r < P → np r = n r + (L r).length) :
    Collective P (fun r => commtableCreate (J r) P (ranges r) (n r) (np r) 0 (l2g r))
      fun r ct => CommOk P rg L r (n r) (J r).slack ct := by
  haveI := (J 0).nonempty
  have hc := fun r hr => commCount_spec h.part (J r) (hs r hr) (hrg r hr) (h.incr r hr) (h.lt r hr) (hl r hr) (hf r hr)
  unfold commtableCreate
  refine Collective.bind (p := fun r => Proc.lift (commCount (J r) P (ranges r) (np r - n r) (l2g r)))
    (φ := fun r o => o.1.size = (L r).length + (J r).slack ∧ Filled o.1.get (L r) ∧ o.2.size = P ∧
      ∀ s, s < P → o.2.get s = (want rg L r s).length) (Collective.of_ok fun r hr => ?_) ?_
  · rw [hnp r hr, Nat.add_sub_cancel_left]
    exact hc r hr
  intro o ho
  refine Collective.bind (p := fun r => alltoall P (o r).2 (.malloc P (J r).ex))
    (φ := fun r ex => ex.size = P ∧ ∀ s, s < P → ex.get s = (want rg L s r).length)
    (Collective.talk (nb := fun _ => List.range P) (m := fun r s => .ints [(o r).2.get s]) (fun r hr => ?_)
      (fun _ _ => ⟨List.nodup_range, fun d hd => by simpa using hd⟩) (fun r s hr hs => by simp [hr, hs])) ?_
  · refine (alltoall_talks (by have := (ho r hr).2.2.1; omega) (by simp) (fun s => (o s).2.get r)).mono ?_
    rintro q ⟨c, rfl, h1, h2⟩
    exact ⟨c, rfl, h1, fun s hs => by rw [h2 s hs, (ho s hs).2.2.2 r hr]⟩
  intro ex hex
  refine Collective.talk (fun r hr => ?_) (fun r _ => nbrs_nodup P rg L r) (fun r s hr hs => nbrs_symm hr hs)
    (m := fun r s => .ints ((want rg L r s).map (· - rg s)))
  have := commFinish_talks h (J r) (n := n r) hr (hs r hr) (hrg r hr) (ho r hr).1 (ho r hr).2.1 (by have := (ho r hr).2.2.1; omega)
    (ho r hr).2.2.2 (by have := (hex r hr).1; omega) (hex r hr).2
  rw [hnp r hr, Nat.add_sub_cancel_left]
  exact this

/-! ### halo exchange -/

theorem sendRecv_talks {P gn : ℕ} {rg : ℕ → ℕ} {L : ℕ → List ℕ} (h : Halo P gn rg L) {r n slack : ℕ} (hr : r < P)
    {ct : CommTable R} (hc : CommOk P rg L r n slack ct) (hn : rg r + n = rg (r + 1)) {x : Arr R} (hx : n + (L r).length ≤ x.size)
    (hns : 0 < (L r).length + slack) (v : ℕ → ℕ → R) :
    (sendRecv ct x).Talks (nbrs P rg L r) (fun s => .scalars ((want rg L s r).map fun j => x.get (j - rg r))) (nbrs P rg L r)
      (fun s => .scalars ((want rg L r s).map (v s)))
      fun q => ∃ o, q = .ret o ∧ CommOk P rg L r n slack o.1 ∧ o.2.size = x.size ∧
        (∀ s, s < P → ∀ p (hp : p < (L r).length), Owns rg s (L r)[p] → o.2.get (n + p) = v s (L r)[p]) ∧
        ∀ i, i < n ∨ n + (L r).length ≤ i → o.2.get i = x.get i := by
  unfold sendRecv
  set N := nbrs P rg L r with hN
  have hes : N.length + 1 ≤ ct.export_ptr.size := hc.eptr.size
  have his : N.length + 1 ≤ ct.import_ptr.size := hc.iptr.size
  -- sends
  have hsends := Proc.Sends.loop (M := Msg R) (n := N.length) (s := ct.ws)
    (f := fun neib (ws : Arr R) => do
      let is ← Proc.lift (ct.export_ptr.rd neib)
      let e ← Proc.lift (ct.export_ptr.rd (neib + 1))
      let inum := e - is
      let ws ← Proc.lift <| loop is (is + inum) ws fun i (ws : Arr R) => do
        let k ← ct.export_index.rd i
        let v ← x.rd k
        ws.wr i v
      let m ← Proc.lift (ws.slice is inum)
      let d ← Proc.lift (ct.neibpe.rd neib)
      .send d (.scalars m) (pure ws)) (fun _ ws => ws.size = ct.ws.size)
      (fun i => (N.getD i 0, .scalars ((want rg L (N.getD i 0) r).map fun j => x.get (j - rg r)))) rfl (by
    intro i ws hi hws
    have hle : ct.export_ptr.get i + (want rg L N[i] r).length ≤ (N.flatMap fun s => want rg L s r).length := hc.eptr.le_total hi
    have hwsz : ct.ws.size = (N.flatMap fun s => want rg L s r).length := hc.ws
    have hesz : (N.flatMap fun s => want rg L s r).length ≤ ct.export_index.size := hc.exisz
    obtain ⟨ws', w1, w2, w3⟩ : Ok (loop (ct.export_ptr.get i) (ct.export_ptr.get i + (want rg L N[i] r).length) ws fun i (ws : Arr R) => do
        let k ← ct.export_index.rd i
        let v ← x.rd k
        ws.wr i v) fun ws' => ws'.size = ws.size ∧
          ∀ q (hq : q < (want rg L N[i] r).length), ws'.get (ct.export_ptr.get i + q) = x.get ((want rg L N[i] r)[q] - rg r) := by
      have hexi : ∀ q (hq : q < (want rg L N[i] r).length), ct.export_index.get (ct.export_ptr.get i + q) = (want rg L N[i] r)[q] - rg r := by
        intro q hq
        have := hc.exi.seg (hc.eptr.map (fun s _ => by simp)) hi (q := q) (by simpa using hq)
        simpa using this
      refine Ok_loop_fill (fun k => x.get (ct.export_index.get k)) (fun k y hk1 hk2 hsz _ _ => ?_) ?_
      · simp only [Ok_bind, Ok_rd, Ok_wr]
        have hq : k - ct.export_ptr.get i < (want rg L N[i] r).length := by omega
        have hk := hexi (k - ct.export_ptr.get i) hq
        rw [show ct.export_ptr.get i + (k - ct.export_ptr.get i) = k by omega] at hk
        have hm : (want rg L N[i] r)[k - ct.export_ptr.get i] ∈ want rg L N[i] r := List.getElem_mem _
        rw [ownedBy_mem] at hm
        have hb := hm.2.2
        have hb' := hm.2.1
        refine ⟨by omega, by rw [hk]; omega, by omega, trivial⟩
      · intro y h1 h2 _
        refine ⟨h1, fun q hq => ?_⟩
        rw [h2 _ (by omega) (by omega), hexi q hq]
    have hslice : ws'.slice (ct.export_ptr.get i) (want rg L N[i] r).length =
        some ((want rg L N[i] r).map fun j => x.get (j - rg r)) := by
      unfold Arr.slice
      rw [if_pos (by omega)]
      congr 1
      refine List.ext_getElem (by simp) fun q h1 h2 => ?_
      simp only [List.getElem_map, List.getElem_range]
      exact w3 q (by simpa using h2)
    have hnsz : N.length ≤ ct.neibpe.size := hc.nsz
    refine ⟨ws', ?_, by omega⟩
    have hsub : ct.export_ptr.get (i + 1) - ct.export_ptr.get i = (want rg L N[i] r).length := hc.eptr.sub hi
    rw [Proc.lift_bind (Arr.rd_eq (by omega)), Proc.lift_bind (Arr.rd_eq (by omega))]
    simp only [hsub]
    rw [Proc.lift_bind w1, Proc.lift_bind hslice, Proc.lift_bind (Arr.rd_eq (by omega)), hc.neib i hi, List.getD_eq_getElem _ _ hi]
    rfl)
  rw [map_range_getElem (N := N) _ (fun s => (s, Msg.scalars ((want rg L s r).map fun j => x.get (j - rg r))))
    (fun i hi => by rw [List.getD_eq_getElem _ _ hi])] at hsends
  rw [hc.tot]
  have hflen : (N.flatMap fun s => (want rg L r s).map (v s)).length = (L r).length := by
    rw [length_flatMap_map N (want rg L r) v, h.flat hr]
  refine hsends.talks _ fun ws hws => ⟨fun ms => (Proc.lift do
      let ms ← ms.mapM Msg.asScalars
      deliver (mkRq (fun s => (want rg L r s).map (v s)) 0 N) ms ct.wr).bind fun wr => do
        let k0 ← Proc.lift (ct.import_index.rd 0)
        let lo ← Proc.lift (ct.import_ptr.rd 0)
        let hi ← Proc.lift (ct.import_ptr.rd N.length)
        let (_, x) ← Proc.lift <| loop lo hi (k0 + ct.pad, x) fun i (s : ℕ × Arr R) => do
          let v ← wr.rd i
          let x ← s.2.wr s.1 v
          pure (s.1 + 1, x)
        pure ({ ct with neibpetot := N.length, ws := ws, wr := wr }, x), ?_, ?_⟩
  · rw [Proc.lift_bind (postRecvs_eq hc.neib hc.nsz (hc.iptr.map (fun s _ => by simp)) (f := fun s => (want rg L r s).map (v s))), mkRq_fst]
    rfl
  · obtain ⟨wr, b1, b2, b3⟩ := recvScalars (R := R) (N := N) (f := fun s => (want rg L r s).map (v s)) (a := ct.wr) (by
      rw [hflen, hc.wr])
    dsimp only
    rw [b1, Proc.ret_bind]
    have hlast : ct.import_ptr.get N.length = (L r).length := by rw [hc.iptr.last, h.flat hr]
    have hpad := hc.pad
    have himpsz := hc.impsz
    have hwrsz := hc.wr
    rw [Proc.lift_bind (Arr.rd_eq (by omega)), Proc.lift_bind (Arr.rd_eq (by omega)), Proc.lift_bind (Arr.rd_eq (by omega)),
      hc.iptr.zero, hlast, hpad, Nat.add_zero]
    obtain ⟨⟨k, x'⟩, l1, l2, l3⟩ : Ok (loop 0 (L r).length (ct.import_index.get 0, x) fun i (s : ℕ × Arr R) => do
          let v ← wr.rd i
          let x ← s.2.wr s.1 v
          pure (s.1 + 1, x)) fun o => o.2.size = x.size ∧
            (∀ p (hp : p < (L r).length), o.2.get (n + p) = wr.get p) ∧ ∀ i, i < n ∨ n + (L r).length ≤ i → o.2.get i = x.get i := by
      by_cases hL0 : (L r).length = 0
      · rw [hL0, loop_empty le_rfl, Ok_some]
        exact ⟨rfl, fun p hp => by omega, fun i _ => rfl⟩
      · have him := hc.imp 0 (by omega)
        rw [Nat.add_zero] at him
        rw [him]
        refine Ok_loop_le (fun i (s : ℕ × Arr R) => s.1 = n + i ∧ s.2.size = x.size ∧ (∀ p, p < i → s.2.get (n + p) = wr.get p) ∧
          ∀ j, j < n ∨ n + i ≤ j → s.2.get j = x.get j) (Nat.zero_le _) ⟨by omega, rfl, fun p hp => by omega, fun _ _ => rfl⟩ ?_ ?_
        · rintro i ⟨k, y⟩ _ hi ⟨i1, i2, i3, i4⟩
          dsimp only at i1 i2 i3 i4 ⊢
          simp only [Ok_bind, Ok_rd, Ok_wr, Ok_pure]
          refine ⟨by omega, by omega, by omega, by simpa using i2, fun p hp => ?_, fun j hj => ?_⟩
          · by_cases hpi : p = i
            · subst hpi; rw [i1, Arr.set_get_self]
            · rw [Arr.set_get_ne _ _ (by omega)]; exact i3 p (by omega)
          · rw [Arr.set_get_ne _ _ (by omega)]; exact i4 j (by omega)
        · rintro ⟨k, y⟩ ⟨i1, i2, i3, i4⟩
          exact ⟨i2, i3, i4⟩
    rw [Proc.lift_bind l1]
    refine ⟨_, rfl, ⟨rfl, rfl, hc.nsz, hc.neib, hc.iptr, hc.eptr, hc.impsz, hc.imp, hc.exisz, hc.exi, ?_, ?_⟩, l2, ?_, l3.2⟩
    · show ws.size = _
      rw [hws, hc.ws]
    · show wr.size = _
      rw [b2, hc.wr]
    · intro s hs p hp hown
      show x'.get (n + p) = _
      rw [l3.1 p hp, b3 p (by rw [hflen]; exact hp)]
      have hLeq : N.flatMap (fun s => (want rg L r s).map (v s)) = (L r).map fun j => v (Classical.epsilon fun s => s < P ∧ Owns rg s j) j := by
        conv_rhs => rw [← h.flat hr, List.map_flatMap]
        refine List.flatMap_congr fun s hsn => List.map_congr_left fun j hj => ?_
        rw [ownedBy_mem] at hj
        have hs' : s < P := (nbrs_nodup P rg L r).2 s hsn
        have := Classical.epsilon_spec (p := fun s => s < P ∧ Owns rg s j) ⟨s, hs', hj.2⟩
        rw [h.part.owner_unique this.1 hs' this.2 hj.2]
      simp only [hLeq, List.getElem_map]
      have := Classical.epsilon_spec (p := fun s => s < P ∧ Owns rg s (L r)[p]) ⟨s, hs, hown⟩
      rw [h.part.owner_unique this.1 hs this.2 hown]

/-! ### reduction -/

theorem mpiReduce_talks [AddCommMonoid R] {P gn : ℕ} {rg : ℕ → ℕ} {L : ℕ → List ℕ} (h : Halo P gn rg L) {r n slack : ℕ} (hr : r < P)
    {ct : CommTable R} (hc : CommOk P rg L r n slack ct) (hn : rg r + n = rg (r + 1)) {x : Arr R} (hx : n + (L r).length ≤ x.size)
    (v : ℕ → ℕ → R) :
    (mpiReduce ct x).Talks (nbrs P rg L r) (fun s => .scalars ((want rg L r s).map fun j => x.get (n + (L r).idxOf j))) (nbrs P rg L r)
      (fun s => .scalars ((want rg L s r).map (v s)))
      fun q => ∃ o, q = .ret o ∧ CommOk P rg L r n slack o.1 ∧ o.2.size = x.size ∧
        ∀ i, o.2.get i = x.get i + ((nbrs P rg L r).map fun s => ((want rg L s r).map fun j => if j - rg r = i then v s j else 0).sum).sum := by
  unfold mpiReduce
  set N := nbrs P rg L r with hN
  have hes : N.length + 1 ≤ ct.export_ptr.size := hc.eptr.size
  have his : N.length + 1 ≤ ct.import_ptr.size := hc.iptr.size
  have hLflat : N.flatMap (want rg L r) = L r := h.flat hr
  have hLnd : (L r).Nodup := (h.incr r hr).imp (fun h => Nat.ne_of_lt h)
  have hpad := hc.pad
  -- sends
  have hsends := Proc.Sends.loop (M := Msg R) (n := N.length) (s := ct.wr)
    (f := fun neib (wr : Arr R) => do
      let is ← Proc.lift (ct.import_ptr.rd neib)
      let e ← Proc.lift (ct.import_ptr.rd (neib + 1))
      let inum := e - is
      let wr ← Proc.lift <| loop is (is + inum) wr fun i (wr : Arr R) => do
        let k ← ct.import_index.rd i
        let v ← x.rd (k + ct.pad)
        wr.wr i v
      let m ← Proc.lift (wr.slice is inum)
      let d ← Proc.lift (ct.neibpe.rd neib)
      .send d (.scalars m) (pure wr)) (fun _ wr => wr.size = ct.wr.size)
      (fun i => (N.getD i 0, .scalars ((want rg L r (N.getD i 0)).map fun j => x.get (n + (L r).idxOf j)))) rfl (by
    intro i wr hi hwr
    have hle : ct.import_ptr.get i + (want rg L r N[i]).length ≤ (N.flatMap fun s => want rg L r s).length := hc.iptr.le_total hi
    rw [hLflat] at hle
    have hwsz := hc.wr
    have hisz := hc.impsz
    have hpos : ∀ q (hq : q < (want rg L r N[i]).length), (L r).idxOf (want rg L r N[i])[q] = ct.import_ptr.get i + q := by
      intro q hq
      have hF : Filled (fun p => (L r).getD p 0) (N.flatMap (want rg L r)) := by
        intro p hp
        simp only [hLflat] at hp ⊢
        exact List.getD_eq_getElem _ _ hp
      have := hF.seg hc.iptr hi hq
      rw [List.getD_eq_getElem _ _ (by omega)] at this
      rw [← this]
      exact hLnd.idxOf_getElem _ _
    obtain ⟨wr', w1, w2, w3⟩ : Ok (loop (ct.import_ptr.get i) (ct.import_ptr.get i + (want rg L r N[i]).length) wr fun i (wr : Arr R) => do
        let k ← ct.import_index.rd i
        let v ← x.rd (k + ct.pad)
        wr.wr i v) fun wr' => wr'.size = wr.size ∧
          ∀ q, q < (want rg L r N[i]).length → wr'.get (ct.import_ptr.get i + q) = x.get (n + (ct.import_ptr.get i + q)) := by
      refine Ok_loop_fill (fun k => x.get (n + k)) (fun k y hk1 hk2 hsz _ _ => ?_) ?_
      · simp only [Ok_bind, Ok_rd, Ok_wr]
        have hk := hc.imp k (by omega)
        rw [hk, hpad]
        exact ⟨by omega, by omega, by omega, rfl⟩
      · intro y h1 h2 _
        exact ⟨h1, fun q hq => h2 _ (by omega) (by omega)⟩
    have hslice : wr'.slice (ct.import_ptr.get i) (want rg L r N[i]).length =
        some ((want rg L r N[i]).map fun j => x.get (n + (L r).idxOf j)) := by
      unfold Arr.slice
      rw [if_pos (by omega)]
      congr 1
      refine List.ext_getElem (by simp) fun q h1 h2 => ?_
      simp only [List.getElem_map, List.getElem_range]
      rw [w3 q (by simpa using h2), hpos q (by simpa using h2)]
    have hnsz : N.length ≤ ct.neibpe.size := hc.nsz
    refine ⟨wr', ?_, by omega⟩
    have hsub : ct.import_ptr.get (i + 1) - ct.import_ptr.get i = (want rg L r N[i]).length := hc.iptr.sub hi
    rw [Proc.lift_bind (Arr.rd_eq (by omega)), Proc.lift_bind (Arr.rd_eq (by omega))]
    simp only [hsub]
    rw [Proc.lift_bind w1, Proc.lift_bind hslice, Proc.lift_bind (Arr.rd_eq (by omega)), hc.neib i hi, List.getD_eq_getElem _ _ hi]
    rfl)
  rw [map_range_getElem (N := N) _ (fun s => (s, Msg.scalars ((want rg L r s).map fun j => x.get (n + (L r).idxOf j))))
    (fun i hi => by rw [List.getD_eq_getElem _ _ hi])] at hsends
  rw [hc.tot]
  have hflen : (N.flatMap fun s => (want rg L s r).map (v s)).length = (N.flatMap fun s => want rg L s r).length :=
    length_flatMap_map N (fun s => want rg L s r) v
  refine hsends.talks _ fun wr hwr => ⟨fun ms => (Proc.lift do
      let ms ← ms.mapM Msg.asScalars
      deliver (mkRq (fun s => (want rg L s r).map (v s)) 0 N) ms ct.ws).bind fun ws => do
        let x ← Proc.lift <| loop 0 N.length x fun neib (x : Arr R) => do
          let is ← ct.export_ptr.rd neib
          let e ← ct.export_ptr.rd (neib + 1)
          loop is (is + (e - is)) x fun i (x : Arr R) => do
            let k ← ct.export_index.rd i
            let v ← ws.rd i
            let o ← x.rd k
            x.wr k (o + v)
        pure ({ ct with neibpetot := N.length, ws := ws, wr := wr }, x), ?_, ?_⟩
  · rw [Proc.lift_bind (postRecvs_eq hc.neib hc.nsz (hc.eptr.map (fun s _ => by simp)) (f := fun s => (want rg L s r).map (v s))), mkRq_fst]
    rfl
  · have hwsz : ct.ws.size = (N.flatMap fun s => want rg L s r).length := hc.ws
    obtain ⟨ws, b1, b2, b3⟩ := recvScalars (R := R) (N := N) (f := fun s => (want rg L s r).map (v s)) (a := ct.ws) (by
      rw [hflen, hwsz])
    dsimp only
    rw [b1, Proc.ret_bind]
    have hesz : (N.flatMap fun s => want rg L s r).length ≤ ct.export_index.size := hc.exisz
    obtain ⟨x', l1, l2, l3⟩ : Ok (loop 0 N.length x fun neib (x : Arr R) => do
          let is ← ct.export_ptr.rd neib
          let e ← ct.export_ptr.rd (neib + 1)
          loop is (is + (e - is)) x fun i (x : Arr R) => do
            let k ← ct.export_index.rd i
            let v ← ws.rd i
            let o ← x.rd k
            x.wr k (o + v)) fun o => o.size = x.size ∧
          ∀ i, o.get i = x.get i + (N.map fun s => ((want rg L s r).map fun j => if j - rg r = i then v s j else 0).sum).sum := by
      refine Ok_loop_le (fun t (y : Arr R) => y.size = x.size ∧
          ∀ i, y.get i = x.get i + ((N.take t).map fun s => ((want rg L s r).map fun j => if j - rg r = i then v s j else 0).sum).sum)
        (Nat.zero_le _) ⟨rfl, fun i => by simp⟩ ?_ ?_
      · rintro t y _ ht ⟨y1, y2⟩
        simp only [Ok_bind, Ok_rd]
        refine ⟨by omega, by omega, ?_⟩
        have hsub : ct.export_ptr.get (t + 1) - ct.export_ptr.get t = (want rg L N[t] r).length := hc.eptr.sub ht
        rw [hsub]
        have hle : ct.export_ptr.get t + (want rg L N[t] r).length ≤ (N.flatMap fun s => want rg L s r).length := hc.eptr.le_total ht
        refine Ok_loop_le (fun k (z : Arr R) => z.size = x.size ∧
          ∀ i, z.get i = y.get i + (((want rg L N[t] r).take (k - ct.export_ptr.get t)).map fun j => if j - rg r = i then v N[t] j else 0).sum)
          (by omega) ⟨y1, fun i => by simp⟩ ?_ ?_
        · rintro k z hk1 hk2 ⟨z1, z2⟩
          obtain ⟨q, rfl⟩ := Nat.exists_eq_add_of_le hk1
          have hq : q < (want rg L N[t] r).length := by omega
          have hexi : ct.export_index.get (ct.export_ptr.get t + q) = (want rg L N[t] r)[q] - rg r := by
            have := hc.exi.seg (hc.eptr.map (fun s _ => by simp)) ht (q := q) (by simpa using hq)
            simpa using this
          have hws : ws.get (ct.export_ptr.get t + q) = v N[t] (want rg L N[t] r)[q] := by
            have := b3.seg (ptr := ct.export_ptr) (hc.eptr.map (fun s _ => by simp)) ht (q := q) (by simpa using hq)
            simpa using this
          have hm : (want rg L N[t] r)[q] ∈ want rg L N[t] r := List.getElem_mem _
          rw [ownedBy_mem] at hm
          have hb := hm.2.2
          have hb' := hm.2.1
          simp only [Ok_bind, Ok_rd, Ok_wr, hexi, hws]
          refine ⟨by omega, by omega, by omega, by omega, by simpa using z1, fun i => ?_⟩
          rw [show ct.export_ptr.get t + q + 1 - ct.export_ptr.get t = q + 1 by omega, List.take_succ_eq_append_getElem hq]
          have hz := z2 i
          rw [Nat.add_sub_cancel_left] at hz
          simp only [List.map_append, List.sum_append, List.map_cons, List.map_nil, List.sum_cons, List.sum_nil, add_zero]
          rw [← add_assoc, ← hz, Arr.set_get]
          by_cases hi : i = (want rg L N[t] r)[q] - rg r
          · rw [if_pos hi, if_pos hi.symm, hi]
          · rw [if_neg hi, if_neg (fun e => hi e.symm), add_zero]
        · rintro z ⟨z1, z2⟩
          refine ⟨z1, fun i => ?_⟩
          rw [z2 i, Nat.add_sub_cancel_left, List.take_length, y2 i, List.take_succ_eq_append_getElem ht]
          simp only [List.map_append, List.sum_append, List.map_cons, List.map_nil, List.sum_cons, List.sum_nil, add_zero, add_assoc]
      · rintro y ⟨y1, y2⟩
        rw [List.take_length] at y2
        exact ⟨y1, y2⟩
    rw [Proc.lift_bind l1]
    refine ⟨_, rfl, ⟨hc.pad, rfl, hc.nsz, hc.neib, hc.iptr, hc.eptr, hc.impsz, hc.imp, hc.exisz, hc.exi, ?_, ?_⟩, l2, l3⟩
    · show ws.size = _
      rw [b2, hc.ws]
    · show wr.size = _
      rw [hwr, hc.wr]

end Lis
