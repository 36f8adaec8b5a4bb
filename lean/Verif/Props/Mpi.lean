import Verif.Lemmas.Mpi
import Verif.Props.Matvec1

/-!
# C34: the distributed matrix-vector products

`lis_matrix_assemble` (renumbering, communication table) followed by `lis_matvec` / `lis_matvech` on `P` ranks gives,
for every partition of the rows, every matrix and every schedule of the ranks and messages, the rows of the global
product.
-/

namespace Lis
open Finset

variable {R : Type}

/-! ### local numbering -/

/-- **C34 (local numbering).** Renumbering the columns of a block is defined for every well-formed block and gives the
same matrix with own columns first, then each remote column that occurs, once, in increasing order. -/
theorem g2lCsr_local (j1 j2 : ℕ → ℕ) (gn is ie : ℕ) (A : Csr R) (h : A.WF) (hnp : A.np = gn) (hn : is + A.n = ie) :
    Ok (g2lCsr j1 j2 gn is ie A) fun o => IsLocalCsr gn is ie A o.1 o.2 :=
  g2lCsr_spec j1 j2 gn is ie A h hnp hn

theorem IsLocalCsr.wf {gn is ie : ℕ} {A A' : Csr R} {l2g : Arr ℕ} (h : IsLocalCsr gn is ie A A' l2g) (hA : A.WF) : A'.WF where
  ptr := by rw [h.n, h.nnz, h.ptr]; exact hA.ptr
  isz := by rw [h.nnz, h.isz]; exact hA.isz
  vsz := by rw [h.nnz, h.value]; exact hA.vsz
  idx := by
    intro k hk
    rw [h.nnz] at hk
    exact (h.idx k hk).1

theorem IsLocalCsr.inj {gn is ie : ℕ} {A A' : Csr R} {l2g : Arr ℕ} (h : IsLocalCsr gn is ie A A' l2g) (hn : is + A.n = ie) {a b : ℕ}
    (ha : a < A'.np) (hb : b < A'.np) (he : globalCol is A.n l2g.get a = globalCol is A.n l2g.get b) : a = b := by
  rw [h.np] at ha hb
  unfold globalCol at he
  split at he <;> split at he
  · omega
  · have := (h.ext (b - A.n) (by omega)).2; omega
  · have := (h.ext (a - A.n) (by omega)).2; omega
  · rcases Nat.lt_trichotomy (a - A.n) (b - A.n) with hlt | he' | hlt
    · have := h.incr _ _ hlt (by omega); omega
    · omega
    · have := h.incr _ _ hlt (by omega); omega

/-- **C34 (same matrix).** Entry `(i,k)` of the renumbered block is entry `(i, global column of k)` of the block. -/
theorem IsLocalCsr.entry [AddCommMonoid R] {gn is ie : ℕ} {A A' : Csr R} {l2g : Arr ℕ} (h : IsLocalCsr gn is ie A A' l2g)
    (hA : A.WF) (hn : is + A.n = ie) {i k : ℕ} (hi : i < A.n) (hk : k < A'.np) :
    A'.entry i k = A.entry i (globalCol is A.n l2g.get k) := by
  unfold Csr.entry
  rw [h.ptr, h.value]
  refine sum_congr rfl fun p hp => ?_
  rw [mem_Ico] at hp
  have hpn := hA.ptr.lt_nnz hi hp.2
  have := h.idx p hpn
  by_cases he : A'.index.get p = k
  · rw [if_pos he, if_pos (by rw [← this.2, he])]
  · rw [if_neg he, if_neg]
    intro he'
    exact he (h.inj hn this.1 hk (by rw [this.2, he']))

/-- a remote column that is not in the list does not occur -/
theorem IsLocalCsr.entry_zero [AddCommMonoid R] {gn is ie : ℕ} {A A' : Csr R} {l2g : Arr ℕ} (h : IsLocalCsr gn is ie A A' l2g)
    (hA : A.WF) (hn : is + A.n = ie) {i j : ℕ} (hi : i < A.n) (hj : j < is ∨ ie ≤ j) (hl : ∀ p, p < l2g.size → l2g.get p ≠ j) :
    A.entry i j = 0 := by
  unfold Csr.entry
  refine sum_eq_zero fun p hp => ?_
  rw [mem_Ico] at hp
  have hpn := hA.ptr.lt_nnz hi hp.2
  obtain ⟨h1, h2⟩ := h.idx p hpn
  rw [if_neg]
  intro he
  rw [he] at h2
  unfold globalCol at h2
  rw [h.np] at h1
  split at h2
  · omega
  · exact hl _ (by omega) h2

/-! ### assembling -/

/-- the remote columns of rank `r`, from `A->l2g_map` -/
def haloList (o : ℕ → Csr R × Arr ℕ) (r : ℕ) : List ℕ := (List.range (o r).2.size).map (o r).2.get

theorem haloList_len (o : ℕ → Csr R × Arr ℕ) (r : ℕ) : (haloList o r).length = (o r).2.size := by simp [haloList]
theorem haloList_get (o : ℕ → Csr R × Arr ℕ) (r p : ℕ) (h : p < (haloList o r).length) : (haloList o r)[p] = (o r).2.get p := by
  simp [haloList]

theorem halo_of_local [AddCommMonoid R] {P gn : ℕ} {rg : ℕ → ℕ} {A : ℕ → Csr R} {G : ℕ → ℕ → R} (h : DistMatrix P gn rg A G)
    {o : ℕ → Csr R × Arr ℕ} (ho : ∀ r, r < P → IsLocalCsr gn (rg r) (rg (r + 1)) (A r) (o r).1 (o r).2) :
    Halo P gn rg (haloList o) := by
  refine ⟨h.part, fun r hr => ?_, fun r hr j hj => ?_⟩
  · rw [List.pairwise_iff_getElem]
    intro p q hp hq hpq
    rw [haloList_get, haloList_get]
    rw [haloList_len] at hq
    exact (ho r hr).incr p q hpq hq
  · obtain ⟨p, hp, rfl⟩ := List.getElem_of_mem hj
    rw [haloList_get]
    rw [haloList_len] at hp
    exact ((ho r hr).ext p hp).1

theorem mpiAssemble_bind [AddCommMonoid R] {β : Type} {P gn : ℕ} {rg : ℕ → ℕ} {A : ℕ → Csr R} {G : ℕ → ℕ → R}
    (h : DistMatrix P gn rg A G) {ranges : ℕ → Arr ℕ} (hrg : KnowsRanges P rg ranges) (j1 j2 : ℕ → ℕ → ℕ) (J : ℕ → CommJunk R)
    {f : ℕ → Csr R × CommTable R → Proc (Msg R) β} {ψ : ℕ → β → Prop}
    (hf : ∀ (o : ℕ → Csr R × Arr ℕ) (ct : ℕ → CommTable R),
      (∀ r, r < P → IsLocalCsr gn (rg r) (rg (r + 1)) (A r) (o r).1 (o r).2) → Halo P gn rg (haloList o) →
      (∀ r, r < P → CommOk P rg (haloList o) r (A r).n (J r).slack (ct r)) →
      Collective P (fun r => f r ((o r).1, ct r)) ψ) :
    Collective P (fun r => (mpiAssembleCsr (j1 r) (j2 r) (J r) P (ranges r) gn (rg r) (rg (r + 1)) (A r)).bind (f r)) ψ := by
  haveI := (J 0).nonempty
  haveI : Nonempty (Csr R × Arr ℕ) := ⟨A 0, ranges 0⟩
  have e : ∀ r, (mpiAssembleCsr (j1 r) (j2 r) (J r) P (ranges r) gn (rg r) (rg (r + 1)) (A r)).bind (f r) =
      (Proc.lift (g2lCsr (j1 r) (j2 r) gn (rg r) (rg (r + 1)) (A r))).bind fun o =>
        (commtableCreate (J r) P (ranges r) o.1.n o.1.np 0 o.2).bind fun ct => f r (o.1, ct) := by
    intro r
    unfold mpiAssembleCsr
    cases g2lCsr (j1 r) (j2 r) gn (rg r) (rg (r + 1)) (A r) with
    | none => rfl
    | some o =>
      show ((commtableCreate _ _ _ _ _ _ _).bind _).bind _ = (commtableCreate _ _ _ _ _ _ _).bind _
      generalize commtableCreate (J r) P (ranges r) o.1.n o.1.np 0 o.2 = p
      induction p with
      | ret a => rfl
      | fail => rfl
      | send d m k ih => simp only [Proc.bind, ih]
      | recvAll s k ih => simp only [Proc.bind, ih]
  simp only [e]
  refine Collective.bind (Collective.of_ok fun r hr => g2lCsr_spec (j1 r) (j2 r) gn (rg r) (rg (r + 1)) (A r) (h.wf r hr) (h.np r hr) (h.n r hr)) ?_
  intro o ho
  have hH := halo_of_local h ho
  refine Collective.bind (commtableCreate_collective hH J (ranges := ranges) (l2g := fun r => (o r).2) (n := fun r => (o r).1.n)
    (np := fun r => (o r).1.np) (fun r hr => (hrg r hr).1) (fun r hr => (hrg r hr).2) (fun r hr => by rw [haloList_len])
    (fun r hr q hq => by rw [haloList_get]) (fun r hr => by rw [haloList_len, (ho r hr).np, (ho r hr).n])) ?_
  intro ct hct
  exact hf o ct ho hH (fun r hr => by rw [← (ho r hr).n]; exact hct r hr)

/-! ### the product -/

theorem growTo_size (junk : ℕ → R) (m : ℕ) (x : Arr R) : m ≤ (growTo junk m x).size ∧ x.size ≤ (growTo junk m x).size := by
  unfold growTo; split
  · next h => exact ⟨le_rfl, Nat.le_of_lt h⟩
  · exact ⟨by omega, le_rfl⟩

theorem growTo_get (junk : ℕ → R) (m : ℕ) (x : Arr R) {i : ℕ} (h : i < x.size) : (growTo junk m x).get i = x.get i := by
  unfold growTo; split
  · simp [h]
  · rfl

theorem halo_pos {gn is ie : ℕ} {A A' : Csr R} {l2g : Arr ℕ} (h : IsLocalCsr gn is ie A A' l2g) (hn : is + A.n = ie)
    (hr : ∃ k, k < A.nnz ∧ (A.index.get k < is ∨ ie ≤ A.index.get k)) : 0 < l2g.size := by
  obtain ⟨k, hk, hext⟩ := hr
  obtain ⟨h1, h2⟩ := h.idx k hk
  rw [h.np] at h1
  unfold globalCol at h2
  split at h2
  · omega
  · omega

/-- one product on an assembled matrix -/
theorem mpiMatvec_collective [NonUnitalNonAssocSemiring R] {P gn : ℕ} {rg : ℕ → ℕ} {A : ℕ → Csr R} {G : ℕ → ℕ → R}
    (h : DistMatrix P gn rg A G) {slack : ℕ → ℕ} (hsl : ∀ r, r < P → 1 ≤ slack r ∨ NeedsRemote rg A r) {o : ℕ → Csr R × Arr ℕ}
    {ct : ℕ → CommTable R} (ho : ∀ r, r < P → IsLocalCsr gn (rg r) (rg (r + 1)) (A r) (o r).1 (o r).2)
    (hH : Halo P gn rg (haloList o)) (hct : ∀ r, r < P → CommOk P rg (haloList o) r (A r).n (slack r) (ct r)) (junk : ℕ → ℕ → R)
    {x y : ℕ → Arr R} {xg : ℕ → R} (hx : DistVec P rg x xg) (hy : ∀ r, r < P → (A r).n ≤ (y r).size) :
    Collective P (fun r => mpiMatvecCsr (junk r) (o r).1 (ct r) (x r) (y r)) fun r q =>
      CommOk P rg (haloList o) r (A r).n (slack r) q.1 ∧ (x r).size ≤ q.2.1.size ∧
      (∀ i, i < (A r).n → q.2.1.get i = (x r).get i) ∧ q.2.2.size = (y r).size ∧
      (∀ i, i < (A r).n → q.2.2.get i = ∑ j ∈ range gn, G (rg r + i) j * xg j) ∧
      ∀ i, (A r).n ≤ i → q.2.2.get i = (y r).get i := by
  haveI : Nonempty (CommTable R × Arr R) := ⟨ct 0, x 0⟩
  haveI : Nonempty (CommTable R × Arr R × Arr R) := ⟨ct 0, x 0, x 0⟩
  unfold mpiMatvecCsr
  refine Collective.bind (p := fun r => sendRecv (ct r) (growTo (junk r) (o r).1.np (x r)))
    (φ := fun r q => CommOk P rg (haloList o) r (A r).n (slack r) q.1 ∧ (x r).size ≤ q.2.size ∧ (o r).1.np ≤ q.2.size ∧
      (∀ i, i < (A r).n → q.2.get i = (x r).get i) ∧ ∀ k, k < (o r).1.np → q.2.get k = xg (globalCol (rg r) (A r).n (o r).2.get k))
    (Collective.talk (fun r hr => ?_) (fun r _ => nbrs_nodup P rg (haloList o) r) (fun r s hr hs => nbrs_symm hr hs)
      (m := fun r s => .scalars ((want rg (haloList o) s r).map fun j => (growTo (junk r) (o r).1.np (x r)).get (j - rg r)))) ?_
  · have hl := ho r hr
    have hnp := hl.np
    have hlen := haloList_len o r
    have hg := growTo_size (junk r) (o r).1.np (x r)
    have hxr := hx r hr
    have hnr := h.n r hr
    have hpos : 0 < (haloList o r).length + slack r := by
      rcases hsl r hr with h1 | h1
      · omega
      · have := halo_pos hl (h.n r hr) h1; omega
    refine (sendRecv_talks hH hr (hct r hr) (h.n r hr) (by omega) hpos
      (fun s j => (growTo (junk s) (o s).1.np (x s)).get (j - rg s))).mono ?_
    rintro q ⟨⟨ct', x'⟩, rfl, q1, q2, q3, q4⟩
    dsimp only at q1 q2 q3 q4
    refine ⟨_, rfl, q1, by dsimp only; omega, by dsimp only; omega, fun i hi => ?_, fun k hk => ?_⟩
    · dsimp only
      rw [q4 i (by omega), growTo_get _ _ _ (by omega)]
    · dsimp only
      unfold globalCol
      by_cases hkn : k < (A r).n
      · rw [if_pos hkn, q4 k (by omega), growTo_get _ _ _ (by omega)]
        exact hxr.2 k (by omega)
      · rw [if_neg hkn]
        have hp : k - (A r).n < (haloList o r).length := by omega
        obtain ⟨s, hs, hown⟩ := h.part.owner (hH.lt r hr _ (List.getElem_mem hp))
        have := q3 s hs (k - (A r).n) hp hown
        rw [show (A r).n + (k - (A r).n) = k by omega] at this
        rw [this]
        rw [haloList_get] at hown ⊢
        have hb := hown.1
        have hb' := hown.2
        have hxs := hx s hs
        rw [growTo_get _ _ _ (by omega), hxs.2 _ (by omega)]
        congr 1; omega
  intro q hq
  refine Collective.ret fun r hr => ?_
  obtain ⟨q1, q2, q3, q4, q5⟩ := hq r hr
  have hl := ho r hr
  have hA := h.wf r hr
  have hwf := hl.wf hA
  obtain ⟨y', y1, y2, y3, y4⟩ := matvecCsr_spec (o r).1 hwf (q r).2 (y r) q3 (by rw [hl.n]; exact hy r hr)
  refine ⟨((q r).1, (q r).2, y'), ?_, q1, q2, q4, y2, fun i hi => ?_, fun i hi => y4 i (by rw [hl.n]; exact hi)⟩
  · show (Proc.lift (matvecCsr (o r).1 (q r).2 (y r)) >>= fun y' => pure ((q r).1, (q r).2, y')) = _
    rw [Proc.lift_bind y1]; rfl
  show y'.get i = _
  rw [y3 i (by rw [hl.n]; exact hi), ← Csr.row_sum hwf _ (by rw [hl.n]; exact hi)]
  rw [show ∑ j ∈ range gn, G (rg r + i) j * xg j = ∑ j ∈ range (A r).np, (A r).entry i j * xg j by
    rw [h.np r hr]
    exact sum_congr rfl fun j hj => by rw [h.entry r hr i hi j (by simpa using hj)]]
  rw [← Csr.row_sum hA _ hi, hl.ptr, hl.value]
  refine sum_congr rfl fun k hk => ?_
  rw [mem_Ico] at hk
  have hkn := hA.ptr.lt_nnz hi hk.2
  obtain ⟨h1, h2⟩ := hl.idx k hkn
  rw [q5 _ h1, h2]

/-- **C34.** `P` ranks assemble a distributed matrix (any partition of the rows, any pattern) and multiply it by a
distributed vector: under every schedule of the ranks and messages the calls terminate without deadlock or undefined
behaviour, and rank `r` ends with its rows of the global product `G x` in `y` and its part of `x` unchanged.

Hypothesis on `import_index`: on a rank that needs no remote column `lis_send_recv` reads one element of a block of
zero elements; `slack ≥ 1` says that this read is harmless there. See `mpi_matvec_no_remote`. -/
theorem mpi_matvec [NonUnitalNonAssocSemiring R] {P gn : ℕ} {rg : ℕ → ℕ} {A : ℕ → Csr R} {G : ℕ → ℕ → R}
    (h : DistMatrix P gn rg A G) {ranges : ℕ → Arr ℕ} (hrg : KnowsRanges P rg ranges) (j1 j2 : ℕ → ℕ → ℕ) (J : ℕ → CommJunk R)
    (hsl : ∀ r, r < P → 1 ≤ (J r).slack ∨ NeedsRemote rg A r) (junk : ℕ → ℕ → R) {x y : ℕ → Arr R} {xg : ℕ → R}
    (hx : DistVec P rg x xg) (hy : ∀ r, r < P → (A r).n ≤ (y r).size) :
    AllSchedules P (fun r => do
        let (A', ct) ← mpiAssembleCsr (j1 r) (j2 r) (J r) P (ranges r) gn (rg r) (rg (r + 1)) (A r)
        mpiMatvecCsr (junk r) A' ct (x r) (y r)) fun r q =>
      (∀ i, i < (A r).n → q.2.2.get i = ∑ j ∈ range gn, G (rg r + i) j * xg j) ∧
      ∀ i, i < (A r).n → q.2.1.get i = xg (rg r + i) := by
  refine (Collective.congr (mpiAssemble_bind h hrg j1 j2 J fun o ct ho hH hct =>
    (mpiMatvec_collective h hsl ho hH hct junk hx hy).mono ?_) fun r hr => rfl).all
  rintro r q hr ⟨_, _, q3, _, q5, _⟩
  refine ⟨q5, fun i hi => ?_⟩
  have := h.n r hr
  rw [q3 i hi, (hx r hr).2 i (by omega)]

/-! ### the conjugate transposed product -/

/-- summing over the ranks' rows is summing over all rows -/
theorem IsPartition.sum [AddCommMonoid R] {P gn : ℕ} {rg n : ℕ → ℕ} (h : IsPartition P gn rg)
    (hn : ∀ r, r < P → rg r + n r = rg (r + 1)) (f : ℕ → R) :
    ∑ s ∈ range P, ∑ i ∈ range (n s), f (rg s + i) = ∑ i ∈ range gn, f i := by
  rw [← h.last]
  have main : ∀ k, k ≤ P → ∑ s ∈ range k, ∑ i ∈ range (n s), f (rg s + i) = ∑ i ∈ range (rg k), f i := by
    intro k
    induction k with
    | zero => intro _; rw [h.zero]; simp
    | succ k ih =>
      intro hk
      rw [sum_range_succ, ih (by omega), ← hn k (by omega), sum_range_add]
  exact main P le_rfl

theorem list_sum_single [AddCommMonoid R] (l : List ℕ) (hl : l.Nodup) (c : ℕ → Prop) [DecidablePred c] (f : ℕ → R) (J : ℕ)
    (hc : ∀ j ∈ l, c j ↔ j = J) : (l.map fun j => if c j then f j else 0).sum = if J ∈ l then f J else 0 := by
  induction l with
  | nil => simp
  | cons a l ih =>
    rw [List.nodup_cons] at hl
    rw [List.map_cons, List.sum_cons, ih hl.2 (fun j hj => hc j (List.mem_cons_of_mem _ hj))]
    by_cases ha : a = J
    · subst ha
      rw [if_pos ((hc a (by simp)).2 rfl), if_neg hl.1, if_pos (by simp), add_zero]
    · rw [if_neg (fun h => ha ((hc a (by simp)).1 h)), zero_add]
      simp only [List.mem_cons, Ne.symm ha, false_or]

theorem list_sum_filter_range [AddCommMonoid R] (P : ℕ) (c : ℕ → Bool) (f : ℕ → R) (hc : ∀ s, s < P → c s = false → f s = 0) :
    (((List.range P).filter c).map f).sum = ∑ s ∈ range P, f s := by
  induction P with
  | zero => simp
  | succ P ih =>
    rw [List.range_succ, List.filter_append, List.map_append, List.sum_append, ih (fun s hs => hc s (by omega)), sum_range_succ]
    congr 1
    cases h : c P with
    | true => simp [h]
    | false => simp [h, hc P (by omega) h]

/-- one conjugate transposed product on an assembled matrix -/
theorem mpiMatvech_collective [NonUnitalNonAssocSemiring R] [StarRing R] {P gn : ℕ} {rg : ℕ → ℕ} {A : ℕ → Csr R} {G : ℕ → ℕ → R}
    (h : DistMatrix P gn rg A G) {slack : ℕ → ℕ} {o : ℕ → Csr R × Arr ℕ}
    {ct : ℕ → CommTable R} (ho : ∀ r, r < P → IsLocalCsr gn (rg r) (rg (r + 1)) (A r) (o r).1 (o r).2)
    (hH : Halo P gn rg (haloList o)) (hct : ∀ r, r < P → CommOk P rg (haloList o) r (A r).n (slack r) (ct r)) (junk : ℕ → ℕ → R)
    {x y : ℕ → Arr R} {xg : ℕ → R} (hx : DistVec P rg x xg) :
    Collective P (fun r => mpiMatvechCsr (junk r) (o r).1 (ct r) (x r) (y r)) fun r q =>
      CommOk P rg (haloList o) r (A r).n (slack r) q.1 ∧ (y r).size ≤ q.2.size ∧
      (∀ j, j < (A r).n → q.2.get j = ∑ i ∈ range gn, star (G i (rg r + j)) * xg i) := by
  haveI : Nonempty (CommTable R × Arr R) := ⟨ct 0, x 0⟩
  haveI : Nonempty (Arr R) := ⟨x 0⟩
  unfold mpiMatvechCsr
  refine Collective.bind (φ := fun r (y' : Arr R) => (y r).size ≤ y'.size ∧ (o r).1.np ≤ y'.size ∧
    ∀ k, k < (o r).1.np → y'.get k = ∑ i ∈ range (A r).n, star (G (rg r + i) (globalCol (rg r) (A r).n (o r).2.get k)) * xg (rg r + i))
    (Collective.of_ok fun r hr => ?_) ?_
  · have hl := ho r hr
    have hA := h.wf r hr
    have hxr := hx r hr
    have hnr := h.n r hr
    have hg := growTo_size (junk r) (o r).1.np (y r)
    refine (matvechCsr_spec (o r).1 (hl.wf hA) (x r) (growTo (junk r) (o r).1.np (y r)) (by rw [hl.n]; omega) hg.1).mono ?_
    rintro y' ⟨y1, y2, y3⟩
    refine ⟨by omega, by omega, fun k hk => ?_⟩
    rw [y2 k hk, hl.n]
    refine sum_congr rfl fun i hi => ?_
    rw [mem_range] at hi
    have hnp := hl.np
    have hgc : globalCol (rg r) (A r).n (o r).2.get k < gn := by
      unfold globalCol; split
      · have := h.part.mono' (a := r + 1) (b := P) (by omega) le_rfl
        rw [h.part.last] at this; omega
      · exact (hl.ext _ (by omega)).1
    rw [hl.entry hA hnr hi hk, h.entry r hr i hi _ hgc, hxr.2 i (by omega)]
  intro y' hy'
  refine Collective.talk (fun r hr => ?_) (fun r _ => nbrs_nodup P rg (haloList o) r) (fun r s hr hs => nbrs_symm hr hs)
      (m := fun r s => .scalars ((want rg (haloList o) r s).map fun j => (y' r).get ((A r).n + (haloList o r).idxOf j)))
  have hl := ho r hr
  have hlen := haloList_len o r
  have hnp := hl.np
  have hnr := h.n r hr
  obtain ⟨z1, z2, z3⟩ := hy' r hr
  refine (mpiReduce_talks hH hr (hct r hr) hnr (x := y' r) (by omega)
      (fun s j => (y' s).get ((A s).n + (haloList o s).idxOf j))).mono ?_
  rintro q ⟨⟨ct', x'⟩, rfl, q1, q2, q3⟩
  dsimp only at q1 q2 q3
  refine ⟨_, rfl, q1, by dsimp only; omega, fun j hj => ?_⟩
  dsimp only
  have hJ : Owns rg r (rg r + j) := ⟨by omega, by omega⟩
  have hJgn : rg r + j < gn := by
    have := h.part.mono' (a := r + 1) (b := P) (by omega) le_rfl
    rw [h.part.last] at this; omega
  rw [q3 j, z3 j (by omega)]
  have e1 : globalCol (rg r) (A r).n (o r).2.get j = rg r + j := by unfold globalCol; rw [if_pos hj]
  rw [e1]
  -- contribution of rank s
  have e2 : ∀ s, s < P → (((want rg (haloList o) s r).map fun j' => if j' - rg r = j then
      (y' s).get ((A s).n + (haloList o s).idxOf j') else 0).sum =
      if s = r then 0 else ∑ i ∈ range (A s).n, star (G (rg s + i) (rg r + j)) * xg (rg s + i)) := by
    intro s hs
    have hls := ho s hs
    have hns := h.n s hs
    have hnps := hls.np
    have hlens := haloList_len o s
    have hnd : (haloList o s).Nodup := (hH.incr s hs).imp (fun h => Nat.ne_of_lt h)
    rw [list_sum_single (want rg (haloList o) s r) (hnd.filter _) (fun j' => j' - rg r = j)
      (fun j' => (y' s).get ((A s).n + (haloList o s).idxOf j')) (rg r + j) (fun j' hj' => by
      have := (ownedBy_mem.1 hj').2.1
      omega)]
    by_cases hsr : s = r
    · subst hsr
      rw [if_pos rfl, if_neg]
      intro hm
      have hm := (ownedBy_mem.1 hm).1
      obtain ⟨p, hp, he⟩ := List.getElem_of_mem hm
      rw [haloList_get] at he
      rw [haloList_len] at hp
      have := (hls.ext p hp).2
      omega
    rw [if_neg hsr]
    by_cases hm : rg r + j ∈ haloList o s
    · rw [if_pos (ownedBy_mem.2 ⟨hm, hJ⟩)]
      have hlt := List.idxOf_lt_length_of_mem hm
      rw [(hy' s hs).2.2 _ (by omega)]
      have : globalCol (rg s) (A s).n (o s).2.get ((A s).n + (haloList o s).idxOf (rg r + j)) = rg r + j := by
        unfold globalCol
        rw [if_neg (by omega), Nat.add_sub_cancel_left, ← haloList_get o s _ hlt, List.getElem_idxOf]
      rw [this]
    · rw [if_neg (fun hh => hm (ownedBy_mem.1 hh).1)]
      symm
      refine sum_eq_zero fun i hi => ?_
      rw [mem_range] at hi
      rw [← h.entry s hs i hi _ hJgn, hls.entry_zero (h.wf s hs) hns hi, star_zero, zero_mul]
      · by_contra hcon
        exact hsr (h.part.owner_unique hs hr (j := rg r + j) ⟨by omega, by omega⟩ hJ)
      · intro p hp he
        refine hm ?_
        rw [← he, ← haloList_get o s p (by omega)]
        exact List.getElem_mem _
  have e3 : ((nbrs P rg (haloList o) r).map fun s => ((want rg (haloList o) s r).map fun j' => if j' - rg r = j then
      (y' s).get ((A s).n + (haloList o s).idxOf j') else 0).sum).sum =
      ∑ s ∈ range P, if s = r then 0 else ∑ i ∈ range (A s).n, star (G (rg s + i) (rg r + j)) * xg (rg s + i) := by
    unfold nbrs
    rw [list_sum_filter_range]
    · exact sum_congr rfl fun s hs => e2 s (by simpa using hs)
    · intro s hs hc
      simp only [ne_eq, decide_eq_false_iff_not, not_or, not_not] at hc
      rw [hc.2]; rfl
  rw [e3, ← h.part.sum h.n (fun i => star (G i (rg r + j)) * xg i)]
  have hrP : r ∈ range P := by simpa using hr
  rw [← add_sum_erase _ _ hrP, if_pos rfl, zero_add,
    ← add_sum_erase (range P) (fun s => ∑ i ∈ range (A s).n, star (G (rg s + i) (rg r + j)) * xg (rg s + i)) hrP]
  congr 1
  refine sum_congr rfl fun s hs => ?_
  rw [if_neg (ne_of_mem_erase hs)]

/-- **C34 (conjugate transpose).** As `mpi_matvec` for `lis_matvech`: rank `r` ends with its elements of `Gᴴ x`, for every
partition, pattern and schedule, with no condition on `import_index`. -/
theorem mpi_matvech [NonUnitalNonAssocSemiring R] [StarRing R] {P gn : ℕ} {rg : ℕ → ℕ} {A : ℕ → Csr R} {G : ℕ → ℕ → R}
    (h : DistMatrix P gn rg A G) {ranges : ℕ → Arr ℕ} (hrg : KnowsRanges P rg ranges) (j1 j2 : ℕ → ℕ → ℕ) (J : ℕ → CommJunk R)
    (junk : ℕ → ℕ → R) {x y : ℕ → Arr R} {xg : ℕ → R} (hx : DistVec P rg x xg) :
    AllSchedules P (fun r => do
        let (A', ct) ← mpiAssembleCsr (j1 r) (j2 r) (J r) P (ranges r) gn (rg r) (rg (r + 1)) (A r)
        mpiMatvechCsr (junk r) A' ct (x r) (y r)) fun r q =>
      ∀ j, j < (A r).n → q.2.get j = ∑ i ∈ range gn, star (G i (rg r + j)) * xg i := by
  refine (Collective.congr (mpiAssemble_bind h hrg j1 j2 J fun o ct ho hH hct =>
    (mpiMatvech_collective h ho hH hct junk (y := y) hx).mono ?_) fun r hr => rfl).all
  rintro r q hr ⟨_, _, q3⟩
  exact q3

end Lis
