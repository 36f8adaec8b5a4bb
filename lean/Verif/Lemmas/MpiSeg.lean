import Verif.Model.Mpi
import Verif.Lemmas.Proc
import Verif.Base.Lists2
import Mathlib.Data.List.GetD

/-! Segmented buffers: one segment per neighbour -/

namespace Lis

variable {R α β : Type}

/-- segment pointers: `ptr[i]` = total length of the first `i` segments -/
structure PtrOf (N : List ℕ) (f : ℕ → List β) (ptr : Arr ℕ) : Prop where
  size : N.length + 1 ≤ ptr.size
  get : ∀ i, i ≤ N.length → ptr.get i = ((N.take i).flatMap f).length

theorem PtrOf.succ {N : List ℕ} {f : ℕ → List β} {ptr : Arr ℕ} (h : PtrOf N f ptr) {i : ℕ} (hi : i < N.length) :
    ptr.get (i + 1) = ptr.get i + (f N[i]).length := by
  rw [h.get _ hi, h.get _ (Nat.le_of_lt hi), List.take_succ_eq_append_getElem hi, List.flatMap_append]
  simp

theorem PtrOf.sub {N : List ℕ} {f : ℕ → List β} {ptr : Arr ℕ} (h : PtrOf N f ptr) {i : ℕ} (hi : i < N.length) :
    ptr.get (i + 1) - ptr.get i = (f N[i]).length := by rw [h.succ hi]; omega

theorem PtrOf.last {N : List ℕ} {f : ℕ → List β} {ptr : Arr ℕ} (h : PtrOf N f ptr) :
    ptr.get N.length = (N.flatMap f).length := by rw [h.get _ le_rfl, List.take_length]

theorem PtrOf.zero {N : List ℕ} {f : ℕ → List β} {ptr : Arr ℕ} (h : PtrOf N f ptr) : ptr.get 0 = 0 := by
  rw [h.get _ (Nat.zero_le _)]; simp

theorem PtrOf.le_total {N : List ℕ} {f : ℕ → List β} {ptr : Arr ℕ} (h : PtrOf N f ptr) {i : ℕ} (hi : i < N.length) :
    ptr.get i + (f N[i]).length ≤ (N.flatMap f).length := by
  rw [← h.succ hi, h.get (i + 1) hi]
  conv_rhs => rw [← List.take_append_drop (i + 1) N, List.flatMap_append, List.length_append]
  omega

theorem PtrOf.map {N : List ℕ} {f : ℕ → List β} {ptr : Arr ℕ} (h : PtrOf N f ptr) {g : ℕ → List α}
    (hg : ∀ s ∈ N, (g s).length = (f s).length) : PtrOf N g ptr := by
  refine ⟨h.size, fun i hi => ?_⟩
  rw [h.get i hi, List.length_flatMap, List.length_flatMap]
  congr 1
  refine List.map_congr_left fun s hs => ?_
  rw [hg s (List.mem_of_mem_take hs)]

/-- element `q` of segment `i` -/
theorem flatMap_getElem (N : List ℕ) (f : ℕ → List β) {i q : ℕ} (hi : i < N.length) (hq : q < (f N[i]).length)
    (h : ((N.take i).flatMap f).length + q < (N.flatMap f).length) :
    (N.flatMap f)[((N.take i).flatMap f).length + q] = (f N[i])[q] := by
  have e : N.flatMap f = (N.take i).flatMap f ++ (f N[i] ++ (N.drop (i + 1)).flatMap f) := by
    conv_lhs => rw [← List.take_append_drop i N, List.flatMap_append, List.drop_eq_getElem_cons hi, List.flatMap_cons]
  simp only [e]
  rw [List.getElem_append_right (by omega)]
  simp only [Nat.add_sub_cancel_left]
  rw [List.getElem_append_left hq]

theorem Filled.seg {N : List ℕ} {f : ℕ → List β} {ptr : Arr ℕ} {buf : ℕ → β} (hb : Filled buf (N.flatMap f))
    (h : PtrOf N f ptr) {i q : ℕ} (hi : i < N.length) (hq : q < (f N[i]).length) :
    buf (ptr.get i + q) = (f N[i])[q] := by
  have hle := h.le_total hi
  rw [h.get i (Nat.le_of_lt hi)] at hle ⊢
  rw [hb _ (by omega), flatMap_getElem N f hi hq]

theorem slice_seg {N : List ℕ} {f : ℕ → List β} {ptr : Arr ℕ} {a : Arr β} (hb : Filled a.get (N.flatMap f))
    (h : PtrOf N f ptr) (hs : (N.flatMap f).length ≤ a.size) {i : ℕ} (hi : i < N.length) :
    a.slice (ptr.get i) (f N[i]).length = some (f N[i]) := by
  unfold Arr.slice
  have := h.le_total hi
  rw [if_pos (by omega)]
  congr 1
  refine List.ext_getElem (by simp) fun q h1 h2 => ?_
  simp only [List.getElem_map, List.getElem_range]
  exact hb.seg h hi h2

theorem Ok_blit : ∀ (l : List α) (a : Arr α) (off : ℕ), off + l.length ≤ a.size →
    Ok (a.blit off l) fun a' => a'.size = a.size ∧ (∀ q (h : q < l.length), a'.get (off + q) = l[q]) ∧
      ∀ q, q < off ∨ off + l.length ≤ q → a'.get q = a.get q := by
  intro l
  induction l with
  | nil => intro a off h; simp [Arr.blit]
  | cons x l ih =>
    intro a off h
    rw [List.length_cons] at h
    unfold Arr.blit
    rw [Ok_obind, Ok_wr]
    refine ⟨by omega, (ih (a.set off x) (off + 1) (by simp; omega)).mono ?_⟩
    rintro a' ⟨h1, h2, h3⟩
    refine ⟨by simpa using h1, fun q hq => ?_, fun q hq => ?_⟩
    · cases q with
      | zero =>
        rw [Nat.add_zero, h3 off (by omega)]; simp
      | succ q =>
        rw [show off + (q + 1) = off + 1 + q by omega, h2 q (by simpa using hq)]
        simp
    · rw [List.length_cons] at hq
      rw [h3 q (by omega), Arr.set_get_ne _ _ (by omega)]

/-- requests for the segments `f s`, `s ∈ N`, from offset `off` on -/
def mkRq (f : ℕ → List β) : ℕ → List ℕ → List (ℕ × ℕ × ℕ)
  | _, [] => []
  | off, s :: N => (s, off, (f s).length) :: mkRq f (off + (f s).length) N

theorem mkRq_fst (f : ℕ → List β) : ∀ (N : List ℕ) (off : ℕ), (mkRq f off N).map Prod.fst = N := by
  intro N
  induction N with
  | nil => intro; rfl
  | cons s N ih => intro off; simp [mkRq, ih]

theorem mkRq_snoc (f : ℕ → List β) (s : ℕ) : ∀ (N : List ℕ) (off : ℕ),
    mkRq f off (N ++ [s]) = mkRq f off N ++ [(s, off + (N.flatMap f).length, (f s).length)] := by
  intro N
  induction N with
  | nil => intro off; simp [mkRq]
  | cons t N ih => intro off; simp [mkRq, ih, Nat.add_assoc]

theorem Ok_deliver (f : ℕ → List β) : ∀ (N : List ℕ) (off : ℕ) (a : Arr β), off + (N.flatMap f).length ≤ a.size →
    Ok (deliver (mkRq f off N) (N.map f) a) fun a' => a'.size = a.size ∧
      (∀ q (h : q < (N.flatMap f).length), a'.get (off + q) = (N.flatMap f)[q]) ∧ ∀ q, q < off → a'.get q = a.get q := by
  intro N
  induction N with
  | nil => intro off a h; simp [mkRq, deliver]
  | cons s N ih =>
    intro off a h
    rw [List.flatMap_cons, List.length_append] at h
    simp only [mkRq, List.map_cons, deliver, le_refl, if_true, Ok_obind]
    refine (Ok_blit (f s) a off (by omega)).mono ?_
    rintro a1 ⟨h1, h2, h3⟩
    refine (ih (off + (f s).length) a1 (by omega)).mono ?_
    rintro a2 ⟨k1, k2, k3⟩
    refine ⟨by omega, fun q hq => ?_, fun q hq => ?_⟩
    · rw [List.flatMap_cons, List.length_append] at hq
      by_cases hq' : q < (f s).length
      · rw [k3 _ (by omega), h2 q hq']
        simp only [List.flatMap_cons]
        rw [List.getElem_append_left hq']
      · have := k2 (q - (f s).length) (by omega)
        rw [show off + (f s).length + (q - (f s).length) = off + q by omega] at this
        rw [this]
        simp only [List.flatMap_cons]
        rw [List.getElem_append_right (by omega)]
    · rw [k3 _ (by omega), h3 q (by omega)]

theorem postRecvs_eq {N : List ℕ} {f : ℕ → List β} {ptr neib : Arr ℕ} (hn : Filled neib.get N) (hs : N.length ≤ neib.size)
    (h : PtrOf N f ptr) : postRecvs N.length neib ptr = some (mkRq f 0 N) := by
  have : Ok (postRecvs N.length neib ptr) fun l => l = mkRq f 0 N := by
    unfold postRecvs
    refine Ok_loop_le (fun i (l : List (ℕ × ℕ × ℕ)) => l = mkRq f 0 (N.take i)) (Nat.zero_le _) (by simp [mkRq]) ?_ ?_
    · rintro i l _ hi rfl
      simp only [Ok_bind, Ok_rd, Ok_pure]
      have := h.size
      refine ⟨by omega, by omega, by omega, ?_⟩
      rw [List.take_succ_eq_append_getElem hi, mkRq_snoc, h.sub hi, hn i hi, Nat.zero_add, h.get i (by omega)]
    · rintro l rfl
      rw [List.take_length]
  obtain ⟨_, h1, rfl⟩ := this
  exact h1

theorem mapM_asInts (N : List ℕ) (f : ℕ → List ℕ) :
    (N.map fun s => (Msg.ints (f s) : Msg R)).mapM Msg.asInts = some (N.map f) := by
  induction N with
  | nil => rfl
  | cons s N ih => simp [Msg.asInts, ih]

theorem mapM_asScalars (N : List ℕ) (f : ℕ → List R) :
    (N.map fun s => Msg.scalars (f s)).mapM Msg.asScalars = some (N.map f) := by
  induction N with
  | nil => rfl
  | cons s N ih => simp [Msg.asScalars, ih]

/-- the receives of a phase: integers -/
theorem recvInts {N : List ℕ} {f : ℕ → List ℕ} {a : Arr ℕ} (ha : (N.flatMap f).length ≤ a.size) :
    ∃ b, (Proc.lift (do
        let ms ← (N.map fun s => (Msg.ints (f s) : Msg R)).mapM Msg.asInts
        deliver (mkRq f 0 N) ms a) : Proc (Msg R) (Arr ℕ)) = .ret b ∧ b.size = a.size ∧ Filled b.get (N.flatMap f) := by
  obtain ⟨b, hb, h1, h2, _⟩ := Ok_deliver f N 0 a (by omega)
  refine ⟨b, ?_, h1, fun q hq => by simpa using h2 q hq⟩
  rw [mapM_asInts]
  simp only [Option.bind_eq_bind, Option.bind_some, hb]
  rfl

/-- the receives of a phase: scalars -/
theorem recvScalars {N : List ℕ} {f : ℕ → List R} {a : Arr R} (ha : (N.flatMap f).length ≤ a.size) :
    ∃ b, (Proc.lift (do
        let ms ← (N.map fun s => Msg.scalars (f s)).mapM Msg.asScalars
        deliver (mkRq f 0 N) ms a) : Proc (Msg R) (Arr R)) = .ret b ∧ b.size = a.size ∧ Filled b.get (N.flatMap f) := by
  obtain ⟨b, hb, h1, h2, _⟩ := Ok_deliver f N 0 a (by omega)
  refine ⟨b, ?_, h1, fun q hq => by simpa using h2 q hq⟩
  rw [mapM_asScalars]
  simp only [Option.bind_eq_bind, Option.bind_some, hb]
  rfl

theorem map_range_getElem {N : List ℕ} (g : ℕ → β) (h : ℕ → β) (hg : ∀ i (hi : i < N.length), g i = h N[i]) :
    (List.range N.length).map g = N.map h := by
  refine List.ext_getElem (by simp) fun i h1 h2 => ?_
  simp only [List.getElem_map, List.getElem_range]
  exact hg i (by simpa using h2)

theorem mkRq_const {P : ℕ} (v : ℕ → ℕ) : mkRq (fun i => [v i]) 0 (List.range P) = (List.range P).map fun i => (i, i, 1) := by
  induction P with
  | zero => rfl
  | succ P ih => rw [List.range_succ, mkRq_snoc, ih]; simp

/-- `MPI_Alltoall` -/
theorem alltoall_talks {P : ℕ} {a b : Arr ℕ} (ha : P ≤ a.size) (hb : P ≤ b.size) (v : ℕ → ℕ) :
    (alltoall (R := R) P a b).Talks (List.range P) (fun i => .ints [a.get i]) (List.range P) (fun i => .ints [v i])
      fun q => ∃ c, q = .ret c ∧ c.size = b.size ∧ ∀ i, i < P → c.get i = v i := by
  unfold alltoall
  obtain ⟨u, hu, _⟩ := Proc.Sends.loop (M := Msg R) (n := P) (s := ())
    (f := fun i _ => do
      let v ← Proc.lift (a.rd i)
      .send i (.ints [v]) (pure ())) (fun _ _ => True) (fun i => (i, .ints [a.get i])) trivial (by
      intro i s hi _
      refine ⟨(), ?_, trivial⟩
      rw [Proc.lift_bind (show a.rd i = some (a.get i) by unfold Arr.rd; rw [if_pos (by omega)])]
      rfl)
  rw [hu]
  refine ⟨_, Proc.sendAll_bind _ _ _, ?_⟩
  obtain ⟨c, hc, h1, h2⟩ := recvInts (R := R) (N := List.range P) (f := fun i => [v i]) (a := b) (by
    simpa [List.length_flatMap] using hb)
  rw [mkRq_const] at hc
  refine ⟨c, hc, h1, fun i hi => ?_⟩
  have e : (List.range P).flatMap (fun i => [v i]) = (List.range P).map v := by
    generalize List.range P = L
    induction L <;> simp_all
  rw [e] at h2
  have := h2 i (by simpa using hi)
  simpa using this

end Lis
