import Verif.Lemmas.Omp2
import Verif.Props.Vector
import Verif.Props.Matvec1
import Verif.Spec.Mul

/-!
# C35: the OpenMP kernels, for every team, every schedule and every interleaving

`ompParallel T p m φ`: a team of `T` threads runs the region from memory `m`; whatever the interleaving of the
accesses, the region ends, without undefined behaviour and without deadlock, and the memory then satisfies `φ`.
`Schedule n T sched`: iterations `0..n-1` are distributed over the threads, each to exactly one, in any order.
-/

namespace Lis
open Finset
variable {R V : Type}

/-! ### what `ompParallel` says -/

/-- whatever has happened so far: either all threads are finished and `φ` holds, or some thread can go on -/
theorem ompParallel_reach {T : ℕ} {p : ℕ → Thr V Unit} {m : Mem V} {φ : Mem V → Prop} (h : ompParallel T p m φ)
    {d : Team V} (hd : Team.Steps T ⟨m, p⟩ d) : (d.Done T ∧ φ d.mem) ∨ (¬ d.Done T ∧ ∃ e, d.Step T e) := by
  have := Team.Always.reach h hd
  cases this with
  | mk _ h1 h2 h3 =>
    by_cases hdn : d.Done T
    · exact .inl ⟨hdn, h1 hdn⟩
    · exact .inr ⟨hdn, h2 hdn⟩

/-- there is no infinite execution -/
theorem ompParallel_terminates {T : ℕ} {p : ℕ → Thr V Unit} {m : Mem V} {φ : Mem V → Prop}
    (h : ompParallel T p m φ) : ¬ ∃ run : ℕ → Team V, run 0 = ⟨m, p⟩ ∧ ∀ k, (run k).Step T (run (k + 1)) := by
  rintro ⟨run, h0, hs⟩
  have key : ∀ c : Team V, Team.Always T φ c → ∀ run : ℕ → Team V, run 0 = c →
      ¬ ∀ k, (run k).Step T (run (k + 1)) := by
    intro c hc
    induction hc with
    | mk c _ _ _ ih =>
      intro run h0 hs
      exact ih (run 1) (h0 ▸ hs 0) (fun k => run (k + 1)) rfl fun k => hs (k + 1)
  exact key _ h run h0 hs

/-! ### row-parallel kernels: exactly the serial result, without any law of arithmetic -/

theorem omp_matvecCsr [Add R] [Mul R] [Zero R] (A : Csr R) {T : ℕ} {sched : ℕ → List ℕ} (hs : Schedule A.n T sched) (m : Mem R)
    {y : Arr R} (h : matvecCsr A (m 0) (m 1) = some y) :
    ompParallel T (matvecCsrOmp A sched) m fun m' => m' 1 = y ∧ ∀ b, b ≠ 1 → m' b = m b := by
  refine ompFor_serial hs (row := fun i => do
    let js ← A.ptr.rd i
    let je ← A.ptr.rd (i + 1)
    accRow A.index A.value (m 0) js je 0) ?_ ?_
  · rw [← h]; unfold matvecCsr
    refine loop_congr fun i s _ _ => ?_
    simp only [Option.bind_eq_bind, Option.bind_assoc]
  · intro t i v hi hv Q hsz hq
    have hv' : Ok _ (fun r => r = v) := ⟨_, hv, rfl⟩
    simp only [Ok_bind, Ok_rd] at hv'
    obtain ⟨h1, h2, v', h3, rfl⟩ := hv'
    unfold matvecCsrIter
    simp only [Thr.wp_bind, Thr.wp_lift, Ok_rd]
    refine ⟨h1, h2, wp_accRowThr id (fun j => rowOwn_other (by decide) j) h3 ?_⟩
    rw [Thr.wp_put]; exact ⟨rowOwn_self hi, hsz, hq⟩

theorem omp_matvecSplitCsr [Add R] [Mul R] [Zero R] (A : SplitCsr R) {T : ℕ} {sched : ℕ → List ℕ} (hs : Schedule A.n T sched)
    (m : Mem R) {y : Arr R} (h : matvecSplitCsr A (m 0) (m 1) = some y) :
    ompParallel T (matvecSplitCsrOmp A sched) m fun m' => m' 1 = y ∧ ∀ b, b ≠ 1 → m' b = m b := by
  refine ompFor_serial hs (row := fun i => do
    let d ← A.D.rd i
    let xi ← (m 0).rd i
    let ls ← A.L.ptr.rd i
    let le ← A.L.ptr.rd (i + 1)
    let t ← accRow A.L.index A.L.value (m 0) ls le (d * xi)
    let us ← A.U.ptr.rd i
    let ue ← A.U.ptr.rd (i + 1)
    accRow A.U.index A.U.value (m 0) us ue t) ?_ ?_
  · rw [← h]; unfold matvecSplitCsr
    refine loop_congr fun i s _ _ => ?_
    simp only [Option.bind_eq_bind, Option.bind_assoc]
  · intro t i v hi hv Q hsz hq
    have hv' : Ok _ (fun r => r = v) := ⟨_, hv, rfl⟩
    simp only [Ok_bind, Ok_rd] at hv'
    obtain ⟨h1, h2, h3, h4, v1, h5, h6, h7, v2, h8, rfl⟩ := hv'
    unfold matvecSplitCsrIter
    simp only [Thr.wp_bind, Thr.wp_lift, Thr.wp_get, Ok_rd]
    refine ⟨h1, .inl (rowOwn_other (by decide) _), h2, h3, h4,
      wp_accRowThr id (fun j => rowOwn_other (by decide) j) h5 ⟨h6, h7,
        wp_accRowThr id (fun j => rowOwn_other (by decide) j) h8 ?_⟩⟩
    rw [Thr.wp_put]; exact ⟨rowOwn_self hi, hsz, hq⟩

theorem omp_matvecMsr [Add R] [Mul R] [Zero R] (A : Msr R) {T : ℕ} {sched : ℕ → List ℕ} (hs : Schedule A.n T sched) (m : Mem R)
    {y : Arr R} (h : matvecMsr A (m 0) (m 1) = some y) :
    ompParallel T (matvecMsrOmp A sched) m fun m' => m' 1 = y ∧ ∀ b, b ≠ 1 → m' b = m b := by
  refine ompFor_serial hs (row := fun i => do
    let d ← A.value.rd i
    let xi ← (m 0).rd i
    let js ← A.index.rd i
    let je ← A.index.rd (i + 1)
    accRow A.index A.value (m 0) js je (d * xi)) ?_ ?_
  · rw [← h]; unfold matvecMsr
    refine loop_congr fun i s _ _ => ?_
    simp only [Option.bind_eq_bind, Option.bind_assoc]
  · intro t i v hi hv Q hsz hq
    have hv' : Ok _ (fun r => r = v) := ⟨_, hv, rfl⟩
    simp only [Ok_bind, Ok_rd] at hv'
    obtain ⟨h1, h2, h3, h4, v1, h5, rfl⟩ := hv'
    simp only [Thr.wp_bind, Thr.wp_lift, Thr.wp_get, Ok_rd]
    refine ⟨h1, .inl (rowOwn_other (by decide) _), h2, h3, h4,
      wp_accRowThr id (fun j => rowOwn_other (by decide) j) h5 ?_⟩
    rw [Thr.wp_put]; exact ⟨rowOwn_self hi, hsz, hq⟩

theorem omp_matvechCsc [Add R] [Mul R] [Zero R] [Star R] (A : Csc R) {T : ℕ} {sched : ℕ → List ℕ} (hs : Schedule A.np T sched)
    (m : Mem R) {y : Arr R} (h : matvechCsc A (m 0) (m 1) = some y) :
    ompParallel T (matvechCscOmp A sched) m fun m' => m' 1 = y ∧ ∀ b, b ≠ 1 → m' b = m b := by
  refine ompFor_serial hs (row := fun i => do
    let js ← A.ptr.rd i
    let je ← A.ptr.rd (i + 1)
    accRowH A.index A.value (m 0) js je 0) ?_ ?_
  · rw [← h]; unfold matvechCsc
    refine loop_congr fun i s _ _ => ?_
    simp only [Option.bind_eq_bind, Option.bind_assoc]
  · intro t i v hi hv Q hsz hq
    have hv' : Ok _ (fun r => r = v) := ⟨_, hv, rfl⟩
    simp only [Ok_bind, Ok_rd] at hv'
    obtain ⟨h1, h2, v', h3, rfl⟩ := hv'
    simp only [Thr.wp_bind, Thr.wp_lift, Ok_rd]
    refine ⟨h1, h2, wp_accRowThr star (fun j => rowOwn_other (by decide) j) h3 ?_⟩
    rw [Thr.wp_put]; exact ⟨rowOwn_self hi, hsz, hq⟩

/-- with C05: the product, for every team and interleaving -/
theorem omp_matvecCsr_spec [NonUnitalNonAssocSemiring R] (A : Csr R) (hA : A.WF) {T : ℕ} {sched : ℕ → List ℕ}
    (hs : Schedule A.n T sched) (m : Mem R) (hx : A.np ≤ (m 0).size) (hy : A.n ≤ (m 1).size) :
    ompParallel T (matvecCsrOmp A sched) m fun m' =>
      IsMul A.n A.np A.entry (m 0).get (m' 1).get ∧ SameFrom A.n (m 1).get (m' 1).get ∧ ∀ b, b ≠ 1 → m' b = m b := by
  obtain ⟨y, h, -, h1, h2⟩ := matvecCsr_spec A hA (m 0) (m 1) hx hy
  refine (omp_matvecCsr A hs m h).mono ?_
  rintro m' ⟨rfl, h3⟩
  exact ⟨h1, h2, h3⟩

/-! ### buffered kernels: the serial result in exact arithmetic; the team may be smaller than `nprocs` -/

section buffered
variable {T nprocs : ℕ} {s1 s2 s3 : ℕ → List ℕ}

theorem omp_matvechCsr [NonUnitalNonAssocSemiring R] [StarRing R] (A : Csr R) (hA : A.WF)
    (h1 : Schedule nprocs T s1) (h2 : Schedule A.n T s2) (h3 : Schedule A.np T s3) (h0 : 0 < T) (hT : T ≤ nprocs)
    (m : Mem R) (hx : A.n ≤ (m 0).size) (hy : A.np ≤ (m 1).size) (hw : nprocs * A.np ≤ (m 2).size) :
    ompParallel T (matvechCsrOmp A nprocs s1 s2 s3) m fun m' =>
      IsMulH A.n A.np A.entry (m 0).get (m' 1).get ∧ SameFrom A.np (m 1).get (m' 1).get ∧
      ∀ b, b ≠ 1 → b ≠ 2 → m' b = m b := by
  have := hA.ptr.size
  refine (buffered_spec (body := fun i t => Thr.put 1 i t) h1 h2 h3 h0 hT le_rfl hw (fun i j => star (A.entry i j) * (m 0).get i) ?_
    (fun j => ∑ i ∈ range A.n, star (A.entry i j) * (m 0).get i) ?_).mono ?_
  · intro k i m' hk hi hsz ho
    have hx' : m' 0 = m 0 := ho 0 (by decide)
    simp only [Thr.wp_bind, Thr.wp_lift, Thr.wp_get, Ok_rd]
    refine ⟨by omega, by omega, .inl (bufOwn_other (by decide) _), by rw [hx']; omega,
      wp_scatterThr (hA.ptr.mono i hi) (fun j hj => bufOwn_self (by omega) hj)
      (fun j hj => by have := buf_lt (show k < nprocs by omega) hj; rw [hsz]; omega) ?_ ?_⟩
    · intro q _ hq
      have h1 := hA.ptr.lt_nnz hi hq
      have := hA.isz; have := hA.vsz; have := hA.idx q h1
      omega
    · intro m'' _ hv j hj
      rw [hv j hj, hx', Csr.entry, ite_sum_star_mul]
  · intro i m' hi hsz ho
    rw [Thr.wp_put]
    refine ⟨rowOwn_self hi, by rw [hsz]; omega, ?_⟩
    rw [Mem.set_get, if_pos ⟨rfl, rfl⟩]
  · rintro m' ⟨hy', ho⟩
    refine ⟨fun j hj => ?_, fun j hj => ?_, ho⟩
    · rw [hy']; dsimp only; rw [if_pos hj]
    · rw [hy']; dsimp only; rw [if_neg (by omega)]

theorem omp_matvechSplitCsr [NonUnitalNonAssocSemiring R] [StarRing R] (A : SplitCsr R) (hA : A.WF) (hn : A.np = A.n)
    (h1 : Schedule nprocs T s1) (h2 : Schedule A.n T s2) (h3 : Schedule A.np T s3) (h0 : 0 < T) (hT : T ≤ nprocs)
    (m : Mem R) (hx : A.n ≤ (m 0).size) (hy : A.np ≤ (m 1).size) (hw : nprocs * A.np ≤ (m 2).size) :
    ompParallel T (matvechSplitCsrOmp A nprocs s1 s2 s3) m fun m' =>
      IsMulH A.n A.np A.entry (m 0).get (m' 1).get ∧ SameFrom A.np (m 1).get (m' 1).get ∧
      ∀ b, b ≠ 1 → b ≠ 2 → m' b = m b := by
  have hl := hA.lwf; have hu := hA.uwf
  have e1 := hA.ln; have e2 := hA.lnp; have e3 := hA.un; have e4 := hA.unp
  have hd := hA.dsz
  have := hl.ptr.size; have := hu.ptr.size
  refine (buffered_spec (body := fun i t => do
      let d ← Thr.lift (A.D.rd i)
      let xi ← Thr.get 0 i
      Thr.put 1 i (star d * xi + t)) h1 h2 h3 h0 hT le_rfl hw
    (fun i j => star (A.L.entry i j) * (m 0).get i + star (A.U.entry i j) * (m 0).get i) ?_
    (fun j => ∑ i ∈ range A.n, star (A.entry i j) * (m 0).get i) ?_).mono ?_
  · intro k i m' hk hi hsz ho
    have hx' : m' 0 = m 0 := ho 0 (by decide)
    have hbuf : ∀ j, j < A.np → k * A.np + j < (m' 2).size := fun j hj => by
      have := buf_lt (show k < nprocs by omega) hj; rw [hsz]; omega
    simp only [Thr.wp_bind, Thr.wp_lift, Thr.wp_get, Ok_rd]
    refine ⟨by omega, by omega, .inl (bufOwn_other (by decide) _), by rw [hx']; omega,
      wp_scatterThr (hl.ptr.mono i (by omega)) (fun j hj => bufOwn_self (by omega) hj) hbuf ?_ ?_⟩
    · intro q _ hq
      have h1 := hl.ptr.lt_nnz (by omega) hq
      have := hl.isz; have := hl.vsz; have := hl.idx q h1
      omega
    · intro m'' hf hv
      refine ⟨by omega, by omega,
        wp_scatterThr (hu.ptr.mono i (by omega)) (fun j hj => bufOwn_self (by omega) hj)
        (fun j hj => by rw [(hf 2).1]; exact hbuf j hj) ?_ ?_⟩
      · intro q _ hq
        have h1 := hu.ptr.lt_nnz (by omega) hq
        have := hu.isz; have := hu.vsz; have := hu.idx q h1
        omega
      · intro m3 _ hv3 j hj
        rw [hv3 j hj, hv j hj, hx', Csr.entry, ite_sum_star_mul, Csr.entry, ite_sum_star_mul, add_assoc]
  · intro i m' hi hsz ho
    have hx' : m' 0 = m 0 := ho 0 (by decide)
    simp only [Thr.wp_bind, Thr.wp_lift, Thr.wp_get, Ok_rd, Thr.wp_put]
    refine ⟨by omega, .inl (rowOwn_other (by decide) _), by rw [hx']; omega, rowOwn_self hi, by rw [hsz]; omega, ?_⟩
    rw [Mem.set_get, if_pos ⟨rfl, rfl⟩, hx']
    simp only [SplitCsr.entry, star_add, add_mul, sum_add_distrib, apply_ite star, star_zero, ite_mul, zero_mul]
    rw [sum_ite_eq', if_pos (by rw [mem_range]; omega), add_assoc]
  · rintro m' ⟨hy', ho⟩
    refine ⟨fun j hj => ?_, fun j hj => ?_, ho⟩
    · rw [hy']; dsimp only; rw [if_pos hj]
    · rw [hy']; dsimp only; rw [if_neg (by omega)]

theorem omp_matvecCsc [NonUnitalNonAssocSemiring R] (A : Csc R) (hA : A.WF) (hn : A.n ≤ A.np)
    (h1 : Schedule nprocs T s1) (h2 : Schedule A.np T s2) (h3 : Schedule A.n T s3) (h0 : 0 < T) (hT : T ≤ nprocs)
    (m : Mem R) (hx : A.np ≤ (m 0).size) (hy : A.n ≤ (m 1).size) (hw : nprocs * A.np ≤ (m 2).size) :
    ompParallel T (matvecCscOmp A nprocs s1 s2 s3) m fun m' =>
      IsMul A.n A.np A.entry (m 0).get (m' 1).get ∧ SameFrom A.n (m 1).get (m' 1).get ∧
      ∀ b, b ≠ 1 → b ≠ 2 → m' b = m b := by
  have := hA.ptr.size
  refine (buffered_spec (body := fun i t => Thr.put 1 i t) h1 h2 h3 h0 hT hn hw (fun j i => A.entry i j * (m 0).get j) ?_
    (fun i => ∑ j ∈ range A.np, A.entry i j * (m 0).get j) ?_).mono ?_
  · intro k i m' hk hi hsz ho
    have hx' : m' 0 = m 0 := ho 0 (by decide)
    simp only [Thr.wp_bind, Thr.wp_lift, Thr.wp_get, Ok_rd]
    refine ⟨by omega, by omega, .inl (bufOwn_other (by decide) _), by rw [hx']; omega,
      wp_scatterThr (hA.ptr.mono i hi) (fun j hj => bufOwn_self (by omega) hj)
      (fun j hj => by have := buf_lt (show k < nprocs by omega) hj; rw [hsz]; omega) ?_ ?_⟩
    · intro q _ hq
      have h1 := hA.ptr.lt_nnz hi hq
      have := hA.isz; have := hA.vsz; have := hA.idx q h1
      omega
    · intro m'' _ hv j hj
      rw [hv j hj, hx', Csc.entry]; simp only [id, ite_sum_mul]
  · intro i m' hi hsz ho
    rw [Thr.wp_put]
    refine ⟨rowOwn_self hi, by rw [hsz]; omega, ?_⟩
    rw [Mem.set_get, if_pos ⟨rfl, rfl⟩]
  · rintro m' ⟨hy', ho⟩
    refine ⟨fun j hj => ?_, fun j hj => ?_, ho⟩
    · rw [hy']; dsimp only; rw [if_pos hj]
    · rw [hy']; dsimp only; rw [if_neg (by omega)]

theorem omp_matvechMsr [NonUnitalNonAssocSemiring R] [StarRing R] (A : Msr R) (hA : A.WF)
    (h1 : Schedule nprocs T s1) (h2 : Schedule A.n T s2) (h3 : Schedule A.n T s3) (h0 : 0 < T) (hT : T ≤ nprocs)
    (m : Mem R) (hx : A.n ≤ (m 0).size) (hy : A.n ≤ (m 1).size) (hw : nprocs * A.n ≤ (m 2).size) :
    ompParallel T (matvechMsrOmp A A.n nprocs s1 s2 s3) m fun m' =>
      IsMulH A.n A.n A.entry (m 0).get (m' 1).get ∧ SameFrom A.n (m 1).get (m' 1).get ∧
      ∀ b, b ≠ 1 → b ≠ 2 → m' b = m b := by
  have := hA.isz; have := hA.vsz
  refine (buffered_spec (body := fun i t => Thr.put 1 i t) h1 h2 h3 h0 hT le_rfl hw (fun i j => star (A.entry i j) * (m 0).get i) ?_
    (fun j => ∑ i ∈ range A.n, star (A.entry i j) * (m 0).get i) ?_).mono ?_
  · intro k i m' hk hi hsz ho
    have hx' : m' 0 = m 0 := ho 0 (by decide)
    have hr := hA.range hi
    have hbuf : ∀ j, j < A.n → k * A.n + j < (m' 2).size := fun j hj => by
      have := buf_lt (show k < nprocs by omega) hj; rw [hsz]; omega
    simp only [Thr.wp_bind, Thr.wp_lift, Thr.wp_get, Ok_rd, Thr.wp_put]
    refine ⟨by omega, by omega, .inl (bufOwn_other (by decide) _), by rw [hx']; omega,
      wp_scatterThr (hA.mono i hi) (fun j hj => bufOwn_self (by omega) hj) hbuf ?_ ?_⟩
    · intro q _ hq
      have := hA.idx q (by omega) (by omega)
      omega
    · intro m'' hf hv
      refine ⟨by omega, .inr (bufOwn_self (by omega) hi), by rw [(hf 2).1]; exact hbuf i hi,
        .inl (bufOwn_other (by decide) _), ?_, bufOwn_self (by omega) hi, by rw [(hf 2).1]; exact hbuf i hi, ?_⟩
      · rw [(hf 0).1, hx']; omega
      · intro j hj
        have h0' : (m'' 0).get i = (m 0).get i := by
          rw [(hf 0).2 i (by rw [bufOwn_other (by decide)]; simp), hx']
        rw [Mem.set_get, hv i hi, hv j hj, hx', h0']
        simp only [Msr.entry, star_add, add_mul, ite_sum_star_mul]
        by_cases e : j = i
        · subst e; rw [if_pos ⟨trivial, rfl⟩, if_pos rfl, add_assoc]
          congr 1; rw [add_comm]
        · rw [if_neg (by rintro ⟨_, e'⟩; omega), if_neg (fun e' => e e'.symm), star_zero, zero_mul, zero_add]
  · intro i m' hi hsz ho
    rw [Thr.wp_put]
    refine ⟨rowOwn_self hi, by rw [hsz]; omega, ?_⟩
    rw [Mem.set_get, if_pos ⟨rfl, rfl⟩]
  · rintro m' ⟨hy', ho⟩
    refine ⟨fun j hj => ?_, fun j hj => ?_, ho⟩
    · rw [hy']; dsimp only; rw [if_pos hj]
    · rw [hy']; dsimp only; rw [if_neg (by omega)]

end buffered

/-! ### kernels that split the rows with `LIS_GET_ISIE`: the team must have `nprocs` threads -/

section isie
variable {nprocs : ℕ}

/-- row `j` of block 1 belongs to the thread whose range contains it -/
noncomputable def isieOwn (nprocs n a j : ℕ) : Option ℕ :=
  if h : a = 1 ∧ j < n ∧ 0 < nprocs then some (getIsIe_partition nprocs n h.2.2 j h.2.1).choose else none

theorem isieOwn_self {n k j : ℕ} (hk : k < nprocs) (h1 : (getIsIe k nprocs n).1 ≤ j) (h2 : j < (getIsIe k nprocs n).2)
    (hj : j < n) : isieOwn nprocs n 1 j = some k := by
  unfold isieOwn
  have hp : 0 < nprocs := by omega
  rw [dif_pos ⟨rfl, hj, hp⟩]
  congr 1
  exact (getIsIe_partition nprocs n hp j hj).unique (getIsIe_partition nprocs n hp j hj).choose_spec.1 ⟨hk, h1, h2⟩

theorem isieOwn_other {n a : ℕ} (ha : a ≠ 1) (j : ℕ) : isieOwn nprocs n a j = none := by simp [isieOwn, ha]

theorem getIsIe_le {k n : ℕ} (hk : k < nprocs) : (getIsIe k nprocs n).1 ≤ (getIsIe k nprocs n).2 ∧
    (getIsIe k nprocs n).2 ≤ n := by
  refine ⟨(getIsIe_balanced k nprocs n).1, ?_⟩
  rw [getIsIe_eq]
  simp only
  have h1 := Nat.div_add_mod n nprocs
  have h2 := Nat.mul_le_mul_left (n / nprocs) (show k + 1 ≤ nprocs from hk)
  rw [Nat.mul_comm nprocs] at h1
  omega

/-- a region in which thread `k` computes its rows -/
theorem isie_rows {n : ℕ} {m0 : Mem R} {p : ℕ → Thr R Unit} (val : ℕ → R)
    (h : ∀ k, k < nprocs → (p k).wp (isieOwn nprocs n) k m0 fun _ m =>
      ∀ i, (getIsIe k nprocs n).1 ≤ i → i < (getIsIe k nprocs n).2 → (m 1).get i = val i) (hp : 0 < nprocs) :
    ompParallel nprocs p m0 fun m =>
      m 1 = ⟨(m0 1).size, fun j => if j < n then val j else (m0 1).get j⟩ ∧ ∀ b, b ≠ 1 → m b = m0 b := by
  refine always_of_wp (own := isieOwn nprocs n) _ h ?_
  intro m hsz hun hq
  refine ⟨Arr.ext' (hsz 1) fun j => ?_, fun b hb => Arr.ext' (hsz b) fun j => hun b j fun t _ e => ?_⟩
  · dsimp only
    split
    · next hj =>
      obtain ⟨k, ⟨hk, h1, h2⟩, -⟩ := getIsIe_partition nprocs n hp j hj
      obtain ⟨mt, hv, hview⟩ := hq k hk
      rw [(hview 1).2 j (.inr (isieOwn_self hk h1 h2 hj)), hv j h1 h2]
    · next hj => exact hun 1 j fun t _ e => by simp [isieOwn, hj] at e
  · rw [isieOwn_other hb] at e; cases e

variable [NonUnitalNonAssocSemiring R]

/-- clear the rows of the thread, then add a list of terms to each of them -/
theorem wp_isie_acc {own : ℕ → ℕ → Option ℕ} {k is ie cnt : ℕ} {m0 : Mem R} (hle : is ≤ ie)
    (hown : ∀ i, is ≤ i → i < ie → own 1 i = some k) (hx : ∀ j, own 0 j = none) (hsz : ie ≤ (m0 1).size)
    (coef : ℕ → ℕ → R) (col : ℕ → ℕ → ℕ) {acc : ℕ → ℕ → Thr R Unit}
    (hcol : ∀ j i, j < cnt → is ≤ i → i < ie → col j i < (m0 0).size)
    (hacc : ∀ j i (m : Mem R) (Q : Unit → Mem R → Prop), j < cnt → is ≤ i → i < ie →
      (addAtThr i (coef j i) (col j i)).wp own k m Q → (acc j i).wp own k m Q) {Q : Unit → Mem R → Prop}
    (hq : ∀ m, (∀ i, is ≤ i → i < ie → (m 1).get i = ∑ j ∈ range cnt, coef j i * (m0 0).get (col j i)) → Q () m) :
    (do
      Thr.for' is ie () fun i _ => Thr.put 1 i 0
      Thr.for' 0 cnt () fun j _ => Thr.for' is ie () fun i _ => acc j i : Thr R Unit).wp own k m0 Q := by
  rw [Thr.wp_bind]
  refine Thr.wp_for (fun i _ m => (m 1).size = (m0 1).size ∧ m 0 = m0 0 ∧ ∀ r, is ≤ r → r < i → (m 1).get r = 0)
    hle ⟨rfl, rfl, fun r h1 h2 => by omega⟩ ?_ ?_
  · rintro i - m h1 h2 ⟨a1, a2, a3⟩
    rw [Thr.wp_put]
    refine ⟨hown i h1 h2, by omega, by rw [Mem.set_size]; exact a1, by unfold Mem.set; rw [if_neg (by decide)]; exact a2, ?_⟩
    intro r hr1 hr2
    rw [Mem.set_get]
    split
    · rfl
    · next hc => exact a3 r hr1 (by have : r ≠ i := fun e => hc ⟨rfl, e⟩; omega)
  · rintro - m1 ⟨a1, a2, a3⟩
    refine Thr.wp_for (fun j _ m => (m 1).size = (m0 1).size ∧ m 0 = m0 0 ∧
      ∀ r, is ≤ r → r < ie → (m 1).get r = ∑ j' ∈ range j, coef j' r * (m0 0).get (col j' r))
      (Nat.zero_le _) ⟨a1, a2, fun r h1 h2 => by rw [a3 r h1 h2]; simp⟩ ?_ (fun _ m h => hq m h.2.2)
    rintro j - m _ hj ⟨b1, b2, b3⟩
    refine Thr.wp_for (fun i _ m' => (m' 1).size = (m0 1).size ∧ m' 0 = m0 0 ∧
      ∀ r, is ≤ r → r < ie → (m' 1).get r = ∑ j' ∈ range (if r < i then j + 1 else j), coef j' r * (m0 0).get (col j' r))
      hle ⟨b1, b2, fun r h1 h2 => by rw [if_neg (by omega)]; exact b3 r h1 h2⟩ ?_ ?_
    · rintro i - m' h1 h2 ⟨c1, c2, c3⟩
      refine hacc j i m' _ hj h1 h2 ?_
      unfold addAtThr
      simp only [Thr.wp_bind, Thr.wp_get, Thr.wp_put]
      refine ⟨.inr (hown i h1 h2), by omega, .inl (hx _), by rw [c2]; exact hcol j i hj h1 h2, hown i h1 h2, by omega,
        by rw [Mem.set_size]; exact c1, by unfold Mem.set; rw [if_neg (by decide)]; exact c2, ?_⟩
      intro r hr1 hr2
      rw [Mem.set_get]
      by_cases e : r = i
      · subst e
        rw [if_pos ⟨rfl, rfl⟩, if_pos (by omega), sum_range_succ, c3 r hr1 hr2, if_neg (by omega), c2]
      · rw [if_neg (by rintro ⟨_, e'⟩; exact e e'), c3 r hr1 hr2]
        congr 2
        by_cases h : r < i
        · rw [if_pos h, if_pos (by omega)]
        · rw [if_neg h, if_neg (by omega)]
    · rintro - m' ⟨c1, c2, c3⟩
      exact ⟨c1, c2, fun r h1 h2 => by rw [c3 r h1 h2, if_pos h2]⟩

theorem omp_matvecDns (A : Dns R) (hA : A.WF) (hp : 0 < nprocs) (m : Mem R) (hx : A.np ≤ (m 0).size)
    (hy : A.n ≤ (m 1).size) :
    ompParallel nprocs (matvecDnsOmp A nprocs) m fun m' =>
      IsMul A.n A.np A.entry (m 0).get (m' 1).get ∧ SameFrom A.n (m 1).get (m' 1).get ∧ ∀ b, b ≠ 1 → m' b = m b := by
  have hv := hA.vsz
  refine (isie_rows (n := A.n) (fun i => ∑ j ∈ range A.np, A.entry i j * (m 0).get j) ?_ hp).mono ?_
  · intro k hk
    obtain ⟨hle, hn⟩ := getIsIe_le (n := A.n) hk
    refine wp_isie_acc hle (fun i h1 h2 => isieOwn_self hk h1 h2 (by omega)) (fun j => isieOwn_other (by decide) j)
      (by omega) (fun j i => A.entry i j) (fun j _ => j) (fun j i hj _ _ => by omega) ?_ (fun m' h => h)
    intro j i m' Q hj h1 h2 h
    rw [Thr.wp_bind, Thr.wp_lift, Ok_rd]
    exact ⟨by have := buf_lt hj (show i < A.n by omega); omega, h⟩
  · rintro m' ⟨h1, h2⟩
    refine ⟨fun i hi => ?_, fun i hi => ?_, h2⟩
    · rw [h1]; dsimp only; rw [if_pos hi]
    · rw [h1]; dsimp only; rw [if_neg (by omega)]

theorem omp_matvecEll (A : Ell R) (hA : A.WF) (hp : 0 < nprocs) (m : Mem R) (hx : A.n ≤ (m 0).size)
    (hy : A.n ≤ (m 1).size) :
    ompParallel nprocs (matvecEllOmp A nprocs) m fun m' =>
      IsMul A.n A.n A.entry (m 0).get (m' 1).get ∧ SameFrom A.n (m 1).get (m' 1).get ∧ ∀ b, b ≠ 1 → m' b = m b := by
  have hv := hA.vsz; have hz := hA.isz
  rw [Nat.mul_comm] at hv hz
  refine (isie_rows (n := A.n) (fun i => ∑ j ∈ range A.maxnzr, A.value.get (j * A.n + i) * (m 0).get (A.index.get (j * A.n + i)))
    ?_ hp).mono ?_
  · intro k hk
    obtain ⟨hle, hn⟩ := getIsIe_le (n := A.n) hk
    refine wp_isie_acc hle (fun i h1 h2 => isieOwn_self hk h1 h2 (by omega)) (fun j => isieOwn_other (by decide) j)
      (by omega) (fun j i => A.value.get (j * A.n + i)) (fun j i => A.index.get (j * A.n + i))
      (fun j i hj h1 h2 => by have := hA.idx j hj i (by omega); omega) ?_ (fun m' h => h)
    intro j i m' Q hj h1 h2 h
    have := buf_lt hj (show i < A.n by omega)
    simp only [Thr.wp_bind, Thr.wp_lift, Ok_rd]
    exact ⟨by omega, by omega, h⟩
  · rintro m' ⟨h1, h2⟩
    refine ⟨fun i hi => ?_, fun i hi => ?_, h2⟩
    · rw [h1]; dsimp only; rw [if_pos hi]
      exact sum_by_col fun j hj => hA.idx j (by simpa using hj) i hi
    · rw [h1]; dsimp only; rw [if_neg (by omega)]

/-- the ranges of `LIS_GET_ISIE` are a schedule -/
theorem isie_schedule (n p : ℕ) (hp : 0 < p) :
    Schedule n p fun k => List.range' (getIsIe k p n).1 ((getIsIe k p n).2 - (getIsIe k p n).1) := by
  obtain ⟨h0, hc, hl⟩ := getIsIe_contiguous p n hp
  have key : ∀ q, 0 < q → (List.range q).flatMap (fun k => List.range' (getIsIe k p n).1
      ((getIsIe k p n).2 - (getIsIe k p n).1)) = List.range (getIsIe (q - 1) p n).2 := by
    intro q hq
    induction q with
    | zero => omega
    | succ q ih =>
      rw [List.range_succ, List.flatMap_append]
      rcases Nat.eq_zero_or_pos q with rfl | hq'
      · simp [h0, List.range_eq_range']
      · rw [ih hq', List.range_eq_range', List.range_eq_range']
        have e := hc (q - 1)
        rw [show q - 1 + 1 = q by omega] at e
        have := (getIsIe_balanced q p n).1
        simp only [List.flatMap_cons, List.flatMap_nil, List.append_nil, Nat.add_sub_cancel]
        rw [← e] at this ⊢
        rw [show List.range' (getIsIe (q - 1) p n).2 ((getIsIe q p n).2 - (getIsIe (q - 1) p n).2) =
          List.range' (0 + 1 * (getIsIe (q - 1) p n).2) ((getIsIe q p n).2 - (getIsIe (q - 1) p n).2) by simp,
          List.range'_append]
        congr 1; omega
  unfold Schedule
  rw [key p hp, hl]

theorem omp_matvechDns [StarRing R] (A : Dns R) (hA : A.WF) (hp : 0 < nprocs) {s3 : ℕ → List ℕ}
    (hs3 : Schedule A.np nprocs s3) (m : Mem R) (hx : A.n ≤ (m 0).size)
    (hy : A.np ≤ (m 1).size) (hw : nprocs * A.np ≤ (m 2).size) :
    ompParallel nprocs (matvechDnsOmp A nprocs s3) m fun m' =>
      IsMulH A.n A.np A.entry (m 0).get (m' 1).get ∧ SameFrom A.np (m 1).get (m' 1).get ∧
      ∀ b, b ≠ 1 → b ≠ 2 → m' b = m b := by
  have hv := hA.vsz
  let rows : ℕ → List ℕ := fun k => List.range' (getIsIe k nprocs A.n).1 ((getIsIe k nprocs A.n).2 - (getIsIe k nprocs A.n).1)
  have hs2 : Schedule A.n nprocs rows := isie_schedule A.n nprocs hp
  refine ompParallel_bar hp (always_of_wp (own := bufOwn A.np nprocs)
    (fun k m' => ∀ j, j < A.np → (m' 2).get (k * A.np + j) = ((rows k).map fun i => star (A.entry i j) * (m 0).get i).sum)
    ?_ ?_) (φ := fun m2 => (m2 2).size = (m 2).size ∧ (∀ b, b ≠ 2 → m2 b = m b) ∧
      ∀ k j, k < nprocs → j < A.np →
        (m2 2).get (k * A.np + j) = ((rows k).map fun i => star (A.entry i j) * (m 0).get i).sum) ?_
  · intro k hk
    obtain ⟨hle, hn⟩ := getIsIe_le (n := A.n) hk
    have hbuf : ∀ j, j < A.np → k * A.np + j < (m 2).size := fun j hj => by
      have := buf_lt hk hj; omega
    rw [Thr.wp_bind]
    unfold zeroBlockThr
    refine Thr.wp_for (fun _ _ m' => (m' 2).size = (m 2).size ∧ m' 0 = m 0) (Nat.zero_le _) ⟨rfl, rfl⟩ ?_ ?_
    · rintro i - m' _ hi ⟨a1, a2⟩
      rw [Thr.wp_put]
      exact ⟨bufOwn_self hk hi, by rw [a1]; exact hbuf i hi, by rw [Mem.set_size]; exact a1,
        by unfold Mem.set; rw [if_neg (by decide)]; exact a2⟩
    rintro - m1 ⟨a1, a2⟩
    refine Thr.wp_for (fun j _ m' => (m' 2).size = (m 2).size ∧ m' 0 = m 0 ∧
      ∀ r, r < j → (m' 2).get (k * A.np + r) = ((rows k).map fun i => star (A.entry i r) * (m 0).get i).sum)
      (Nat.zero_le _) ⟨a1, a2, fun r hr => by omega⟩ ?_ (fun _ m' h => h.2.2)
    rintro j - m' _ hj ⟨b1, b2, b3⟩
    rw [Thr.wp_bind]
    refine Thr.wp_for (fun i t m'' => m'' = m' ∧ t = ((List.range' (getIsIe k nprocs A.n).1 (i - (getIsIe k nprocs A.n).1)).map
      fun i => star (A.entry i j) * (m 0).get i).sum) hle ⟨rfl, by simp⟩ ?_ ?_
    · rintro i t m'' h1 h2 ⟨rfl, rfl⟩
      have := buf_lt hj (show i < A.n by omega)
      simp only [Thr.wp_bind, Thr.wp_lift, Thr.wp_get, Ok_rd]
      refine ⟨by omega, .inl (bufOwn_other (by decide) _), by rw [b2]; omega, ?_⟩
      rw [Thr.wp_pure]
      refine ⟨rfl, ?_⟩
      rw [show i + 1 - (getIsIe k nprocs A.n).1 = (i - (getIsIe k nprocs A.n).1) + 1 by omega, List.range'_1_concat,
        List.map_append, List.sum_append, b2]
      simp only [List.map_cons, List.map_nil, List.sum_cons, List.sum_nil, add_zero]
      rw [show (getIsIe k nprocs A.n).1 + (i - (getIsIe k nprocs A.n).1) = i by omega]
      rfl
    · rintro t m'' ⟨rfl, rfl⟩
      rw [Thr.wp_put]
      refine ⟨bufOwn_self hk hj, by rw [b1]; exact hbuf j hj, by rw [Mem.set_size]; exact b1,
        by unfold Mem.set; rw [if_neg (by decide)]; exact b2, fun r hr => ?_⟩
      rw [Mem.set_get]
      by_cases e : r = j
      · subst e; rw [if_pos ⟨rfl, rfl⟩]
      · rw [if_neg (by rintro ⟨_, e'⟩; omega)]; exact b3 r (by omega)
  · intro m' hsz hun hq
    refine ⟨hsz 2, fun b hb => Arr.ext' (hsz b) fun j => hun b j fun t _ e => ?_, fun k j hk hj => ?_⟩
    · rw [bufOwn_other hb] at e; cases e
    · obtain ⟨mt, h1, h2⟩ := hq k hk
      rw [(h2 2).2 _ (.inr (bufOwn_self hk hj)), h1 j hj]
  · rintro m2 ⟨c1, c2, c3⟩
    refine (gatherPhase hs2 hs3 le_rfl le_rfl (m0 := m2) (fun i j => star (A.entry i j) * (m 0).get i)
      (by rw [c1]; exact hw) (fun k j hk hj => by rw [if_pos hk]; exact c3 k j hk hj)
      (body := fun i t => Thr.put 1 i t) (fun j => ∑ i ∈ range A.n, star (A.entry i j) * (m 0).get i) ?_).mono ?_
    · intro i hi
      rw [Thr.wp_put]
      refine ⟨rowOwn_self hi, by rw [c2 1 (by decide)]; omega, ?_⟩
      rw [Mem.set_get, if_pos ⟨rfl, rfl⟩]
    · rintro m' rfl
      refine ⟨fun j hj => ?_, fun j hj => ?_, fun b h1 h2 => ?_⟩
      · simp [Mem.fill, hj]
      · rw [Mem.fill, if_pos rfl]; dsimp only; rw [if_neg (by omega), c2 1 (by decide)]
      · rw [Mem.fill, if_neg h1, c2 b h2]

end isie

/-! ### vector operations: exactly the serial result; `x`, `y`, `z` may be the same vector -/

section vec

/-- the value blocks -/
def Vecs.blocks (h : Vecs R) : Mem R := fun v => (h v).value

theorem omp_elem {T : ℕ} {sched : ℕ → List ℕ} {h h' : Vecs R} {z : ℕ} (hs : Schedule (h z).n T sched) {g : ℕ → R}
    (ha : Assigned h z g h') {body : ℕ → ℕ → Thr R Unit}
    (hb : ∀ t i, i < (h z).n → ∀ Q : Unit → Mem R → Prop, Q () (h.blocks.set z i (g i)) →
      (body t i).wp (rowOwn z (h z).n) i h.blocks Q) :
    ompParallel T (ompFor sched body) h.blocks fun m => m = h'.blocks := by
  refine ompFor_rows hs (z := z) g (fun t i _ hi => hb t i hi _ ?_) ?_
  · rw [Mem.set_get]; simp
  · funext b
    unfold Mem.fill Vecs.blocks
    split
    · next e =>
      subst e; symm; refine Arr.ext' ha.size fun j => ?_
      rw [ha.get j]
    · next e => rw [ha.other b e]

variable {T : ℕ} {sched : ℕ → List ℕ}

theorem omp_vectorCopy (h : Vecs R) (x y : ℕ) (hx : h.WF x) (hy : h.WF y) (hn : (h x).n = (h y).n)
    (hs : Schedule (h y).n T sched) {h' : Vecs R} (hr : vectorCopy x y h = some (.success, h')) :
    ompParallel T (vectorCopyOmp x y sched) h.blocks fun m => m = h'.blocks := by
  obtain ⟨r, e, -, ha⟩ := vectorCopy_spec h x y hx hy hn
  rw [hr] at e; cases e
  unfold Vecs.WF at hx hy
  refine omp_elem hs ha fun t i hi Q hq => ?_
  simp only [Thr.wp_bind, Thr.wp_get, Thr.wp_put]
  exact ⟨rowOwn_rd hi, by simp only [Vecs.blocks]; omega, rowOwn_self hi, by simp only [Vecs.blocks]; omega, hq⟩

theorem omp_vectorAxpy [Add R] [Mul R] (al : R) (h : Vecs R) (x y : ℕ) (hx : h.WF x) (hy : h.WF y)
    (hn : (h x).n = (h y).n) (hs : Schedule (h y).n T sched) {h' : Vecs R}
    (hr : vectorAxpy al x y h = some (.success, h')) :
    ompParallel T (vectorAxpyOmp al x y sched) h.blocks fun m => m = h'.blocks := by
  obtain ⟨r, e, -, ha⟩ := vectorAxpy_spec al h x y hx hy hn
  rw [hr] at e; cases e
  unfold Vecs.WF at hx hy
  refine omp_elem hs ha fun t i hi Q hq => ?_
  simp only [Thr.wp_bind, Thr.wp_get, Thr.wp_put]
  exact ⟨rowOwn_rd hi, by simp only [Vecs.blocks]; omega, rowOwn_rd hi, by simp only [Vecs.blocks]; omega,
    rowOwn_self hi, by simp only [Vecs.blocks]; omega, hq⟩

theorem omp_vectorXpay [Add R] [Mul R] (al : R) (h : Vecs R) (x y : ℕ) (hx : h.WF x) (hy : h.WF y)
    (hn : (h x).n = (h y).n) (hs : Schedule (h y).n T sched) {h' : Vecs R}
    (hr : vectorXpay x al y h = some (.success, h')) :
    ompParallel T (vectorXpayOmp x al y sched) h.blocks fun m => m = h'.blocks := by
  obtain ⟨r, e, -, ha⟩ := vectorXpay_spec al h x y hx hy hn
  rw [hr] at e; cases e
  unfold Vecs.WF at hx hy
  refine omp_elem hs ha fun t i hi Q hq => ?_
  simp only [Thr.wp_bind, Thr.wp_get, Thr.wp_put]
  exact ⟨rowOwn_rd hi, by simp only [Vecs.blocks]; omega, rowOwn_rd hi, by simp only [Vecs.blocks]; omega,
    rowOwn_self hi, by simp only [Vecs.blocks]; omega, hq⟩

theorem omp_vectorAxpyz [Add R] [Mul R] (al : R) (h : Vecs R) (x y z : ℕ) (hx : h.WF x) (hy : h.WF y) (hz : h.WF z)
    (hn : (h x).n = (h y).n) (hn' : (h x).n = (h z).n) (hs : Schedule (h z).n T sched) {h' : Vecs R}
    (hr : vectorAxpyz al x y z h = some (.success, h')) :
    ompParallel T (vectorAxpyzOmp al x y z sched) h.blocks fun m => m = h'.blocks := by
  obtain ⟨r, e, -, ha⟩ := vectorAxpyz_spec al h x y z hx hy hz hn hn'
  rw [hr] at e; cases e
  unfold Vecs.WF at hx hy hz
  refine omp_elem hs ha fun t i hi Q hq => ?_
  simp only [Thr.wp_bind, Thr.wp_get, Thr.wp_put]
  exact ⟨rowOwn_rd hi, by simp only [Vecs.blocks]; omega, rowOwn_rd hi, by simp only [Vecs.blocks]; omega,
    rowOwn_self hi, by simp only [Vecs.blocks]; omega, hq⟩

theorem omp_vectorPmul [Mul R] (h : Vecs R) (x y z : ℕ) (hx : h.WF x) (hy : h.WF y) (hz : h.WF z)
    (hn : (h x).n = (h y).n) (hn' : (h x).n = (h z).n) (hs : Schedule (h z).n T sched) {h' : Vecs R}
    (hr : vectorPmul x y z h = some (.success, h')) :
    ompParallel T (vectorPmulOmp x y z sched) h.blocks fun m => m = h'.blocks := by
  obtain ⟨r, e, -, ha⟩ := vectorPmul_spec h x y z hx hy hz hn hn'
  rw [hr] at e; cases e
  unfold Vecs.WF at hx hy hz
  refine omp_elem hs ha fun t i hi Q hq => ?_
  simp only [Thr.wp_bind, Thr.wp_get, Thr.wp_put]
  exact ⟨rowOwn_rd hi, by simp only [Vecs.blocks]; omega, rowOwn_rd hi, by simp only [Vecs.blocks]; omega,
    rowOwn_self hi, by simp only [Vecs.blocks]; omega, hq⟩

theorem omp_vectorPdiv [Div R] (h : Vecs R) (x y z : ℕ) (hx : h.WF x) (hy : h.WF y) (hz : h.WF z)
    (hn : (h x).n = (h y).n) (hn' : (h x).n = (h z).n) (hs : Schedule (h z).n T sched) {h' : Vecs R}
    (hr : vectorPdiv x y z h = some (.success, h')) :
    ompParallel T (vectorPdivOmp x y z sched) h.blocks fun m => m = h'.blocks := by
  obtain ⟨r, e, -, ha⟩ := vectorPdiv_spec h x y z hx hy hz hn hn'
  rw [hr] at e; cases e
  unfold Vecs.WF at hx hy hz
  refine omp_elem hs ha fun t i hi Q hq => ?_
  simp only [Thr.wp_bind, Thr.wp_get, Thr.wp_put]
  exact ⟨rowOwn_rd hi, by simp only [Vecs.blocks]; omega, rowOwn_rd hi, by simp only [Vecs.blocks]; omega,
    rowOwn_self hi, by simp only [Vecs.blocks]; omega, hq⟩

theorem omp_vectorScale [Mul R] (al : R) (h : Vecs R) (x : ℕ) (hx : h.WF x) (hs : Schedule (h x).n T sched)
    {h' : Vecs R} (hr : vectorScale al x h = some (.success, h')) :
    ompParallel T (vectorScaleOmp al x sched) h.blocks fun m => m = h'.blocks := by
  obtain ⟨r, e, -, ha⟩ := vectorScale_spec al h x hx
  rw [hr] at e; cases e
  unfold Vecs.WF at hx
  refine omp_elem hs ha fun t i hi Q hq => ?_
  simp only [Thr.wp_bind, Thr.wp_get, Thr.wp_put]
  exact ⟨rowOwn_rd hi, by simp only [Vecs.blocks]; omega, rowOwn_self hi, by simp only [Vecs.blocks]; omega, hq⟩

theorem omp_vectorSetAll (al : R) (h : Vecs R) (x : ℕ) (hx : h.WF x) (hs : Schedule (h x).n T sched)
    {h' : Vecs R} (hr : vectorSetAll al x h = some (.success, h')) :
    ompParallel T (vectorSetAllOmp al x sched) h.blocks fun m => m = h'.blocks := by
  obtain ⟨r, e, -, ha⟩ := vectorSetAll_spec al h x hx
  rw [hr] at e; cases e
  unfold Vecs.WF at hx
  refine omp_elem hs ha fun t i hi Q hq => ?_
  rw [Thr.wp_put]
  exact ⟨rowOwn_self hi, by simp only [Vecs.blocks]; omega, hq⟩

/-- `lis_vector_abs`, `reciprocal`, `conjugate`, `shift` -/
theorem omp_vectorMap (f : R → R) (h : Vecs R) (x : ℕ) (hx : h.WF x) (hs : Schedule (h x).n T sched)
    {h' : Vecs R} (hr : Assigned h x (fun i => f (h.el x i)) h') :
    ompParallel T (vectorMapOmp f x sched) h.blocks fun m => m = h'.blocks := by
  unfold Vecs.WF at hx
  refine omp_elem hs hr fun t i hi Q hq => ?_
  simp only [Thr.wp_bind, Thr.wp_get, Thr.wp_put]
  exact ⟨rowOwn_rd hi, by simp only [Vecs.blocks]; omega, rowOwn_self hi, by simp only [Vecs.blocks]; omega, hq⟩

theorem omp_vectorAbs (fabs : R → R) (h : Vecs R) (x : ℕ) (hx : h.WF x) (hs : Schedule (h x).n T sched)
    {h' : Vecs R} (hr : vectorAbs fabs x h = some (.success, h')) :
    ompParallel T (vectorMapOmp fabs x sched) h.blocks fun m => m = h'.blocks := by
  obtain ⟨r, e, -, ha⟩ := vectorAbs_spec fabs h x hx
  rw [hr] at e; cases e
  exact omp_vectorMap fabs h x hx hs ha

theorem omp_vectorReciprocal [One R] [Div R] (h : Vecs R) (x : ℕ) (hx : h.WF x) (hs : Schedule (h x).n T sched)
    {h' : Vecs R} (hr : vectorReciprocal x h = some (.success, h')) :
    ompParallel T (vectorMapOmp (fun a => 1 / a) x sched) h.blocks fun m => m = h'.blocks := by
  obtain ⟨r, e, -, ha⟩ := vectorReciprocal_spec h x hx
  rw [hr] at e; cases e
  exact omp_vectorMap _ h x hx hs ha

theorem omp_vectorConjugate [Star R] (h : Vecs R) (x : ℕ) (hx : h.WF x) (hs : Schedule (h x).n T sched)
    {h' : Vecs R} (hr : vectorConjugate x h = some (.success, h')) :
    ompParallel T (vectorMapOmp star x sched) h.blocks fun m => m = h'.blocks := by
  obtain ⟨r, e, -, ha⟩ := vectorConjugate_spec h x hx
  rw [hr] at e; cases e
  exact omp_vectorMap star h x hx hs ha

theorem omp_vectorShift [Sub R] (sigma : R) (h : Vecs R) (x : ℕ) (hx : h.WF x) (hs : Schedule (h x).n T sched)
    {h' : Vecs R} (hr : vectorShift sigma x h = some (.success, h')) :
    ompParallel T (vectorMapOmp (fun a => a - sigma) x sched) h.blocks fun m => m = h'.blocks := by
  obtain ⟨r, e, -, ha⟩ := vectorShift_spec sigma h x hx
  rw [hr] at e; cases e
  exact omp_vectorMap _ h x hx hs ha

end vec
end Lis
