import Verif.Props.Hybrid

/-! # C53: options of the inner solver, examples and findings -/

namespace Lis

/-- **C53 (options).**  The inner solver gets its kind, its preconditioner, tolerance, iteration limit, restart and ell from
the `-hybrid_…` options and is silent; everything else — the relaxation parameter of SOR (`-omega`) included — has the default
value of a new solver, whatever the user asked for. -/
theorem hybridOptions_spec {D : Type} (lit : ℚ → D) (rc : Err) {s : LSolver D} (ho : s.options.size = 27)
    (hp : s.params.size = 15) :
    Ok (hybridOptions lit rc s) fun q =>
      q.options.get 0 = s.options.get 9 ∧ q.options.get 1 = s.options.get 13 ∧ q.options.get 2 = s.options.get 10 ∧
      q.options.get 3 = 0 ∧ q.options.get 4 = s.options.get 11 ∧ q.options.get 5 = s.options.get 12 ∧
      q.options.get 15 = s.options.get 15 ∧ q.options.get 18 = s.options.get 18 ∧
      q.params.get 0 = s.params.get 9 ∧ q.params.get 8 = s.params.get 10 ∧
      (∀ i, i ∉ [0, 1, 2, 3, 4, 5, 15, 18] → q.options.get i = (solverInit lit rc).options.get i) ∧
      (∀ i, i ∉ [0, 8] → q.params.get i = (solverInit lit rc).params.get i) := by
  have h27 : (solverInit lit rc).options.size = 27 := rfl
  have h15 : (solverInit lit rc).params.size = 15 := rfl
  unfold hybridOptions
  simp only [Ok_bind, Ok_rd, Ok_wr, Ok_pure, Arr.set_size, ho, hp, h27, h15, Arr.set_get]
  simp only [Nat.reduceLT, true_and, List.mem_cons, List.not_mem_nil, or_false, not_or]
  refine ⟨by simp, by simp, by simp, by simp, by simp, by simp, by simp, by simp, by simp, by simp, ?_, ?_⟩
  · rintro i ⟨h0, h1, h2, h3, h4, h5, h6, h7⟩
    simp [h0, h1, h2, h3, h4, h5, h6, h7]
  · rintro i ⟨h0, h1⟩
    simp [h0, h1]

/-- Finding: `-hybrid_omega` is documented as the relaxation coefficient of the inner SOR, but is stored where only the SSOR
*preconditioner* looks (`LIS_PARAMS_SSOR_OMEGA`); `lis_sor` reads `LIS_PARAMS_OMEGA`.  With the default inner solver (SOR)
the option has no effect: the inner SOR always runs with 1.9.
src/precon/lis_precon_hybrid.c:83, src/solver/lis_solver_sor.c:146 -/
theorem hybrid_omega_ignored {D : Type} (lit : ℚ → D) (rc : Err) {s : LSolver D} (ho : s.options.size = 27)
    (hp : s.params.size = 15) : Ok (hybridOptions lit rc s) fun q => q.params.get 1 = lit (19 / 10) :=
  (hybridOptions_spec lit rc ho hp).mono fun q h => h.2.2.2.2.2.2.2.2.2.2.2 1 (by decide)

/-- … while a user can set it, and the other options arrive -/
example : ((setOption2 (D := ℚ) id (fun _ => some (7 / 5)) 0 [] "-hybrid_omega".toList "1.4".toList (solverInit id .success)).bind
    fun r => (hybridOptions id .success r.2).map fun q => (r.2.params.get 10, q.params.get 1, q.params.get 8)) =
    some (7 / 5, 19 / 10, 7 / 5) := by decide +kernel

/-! ### concrete runs -/
section runs
attribute [local instance] starRingOfComm ratReal

/-- `[[1,1],[0,1]]` -/
def hyA : Csr ℚ := ⟨2, 2, 3, .ofList [0, 2, 3], .ofList [0, 1, 1], .ofList [1, 1, 1]⟩

theorem hyA_wf : hyA.WF := ⟨⟨by decide, rfl, by decide, rfl⟩, by decide, by decide, by decide⟩

def hyKit : AKit ℚ ℚ := krylovKit (matvecCsr hyA) (matvechCsr hyA) psolveNone psolveNone (fun x => x) abs none none

def hyMath : Kit ℚ ℚ 2 := krylovMath hyA.entry (fun x => x) abs id id

theorem hyKit_implements : hyKit.Implements hyMath :=
  krylovKit_implements (isMatvec_csr hyA_wf rfl) (isMatvech_csr hyA_wf rfl) (psolveNone_maps 2) (psolveNone_maps 2) _ _
    trivial trivial

def hyVec (l : List ℚ) : LVec ℚ := ⟨2, .ofList l⟩

/-- the inner solver's vectors before the first application -/
def hySt : ASt ℚ ℚ := ⟨fun _ => hyVec [0, 0], ⟨27, fun _ => 0⟩⟩

/-- the caller's vectors: `B` is number 5, `X` number 6 -/
def hyHeap (b : List ℚ) : Vecs ℚ := fun v => if v = 5 then hyVec b else hyVec [9, 9]

def hyOpts : Opts ℚ ℚ := ⟨25, true, .nrm2R, false, 0, 1, none⟩

theorem hySt_ready : HybridReady 2 27 hySt := ⟨fun _ => ⟨rfl, le_refl 2⟩, rfl⟩

/-- the hypotheses of `psolveHybrid_maps` are met by an inner BiCGSTAB … -/
example : MapsVecP 2 (HybridReady 2 27) (psolveHybrid hyKit (lisBicgstab 77 hyOpts) true)
    (hybridOp hyMath (lisBicgstab 77 hyOpts) true 27) :=
  psolveHybrid_maps hyKit_implements (krylov_ignores_work hyMath 77 hyOpts .bicgstab (by decide))
    (krylov_ends hyMath .bicgstab 77 hyOpts (by decide)) true

/-- … which here solves the system exactly … -/
example : ((psolveHybrid hyKit (lisBicgstab 77 hyOpts) true hySt 5 6 (hyHeap [3, 1])).map fun r =>
    ((r.1 6).value.toList, (r.1 5).value.toList, (r.1 7).value.toList)) = some ([2, 1], [3, 1], [9, 9]) := by decide +kernel

/-- Finding: the conjugate-transposed application does not solve `Aᴴ x = b` but `A x = b` again: `lis_psolveh_hybrid`
exchanges the global pointers `LIS_MATVEC` and `LIS_MATVECH`, which no solver uses.  For `A = [[1,1],[0,1]]`, `b = (3,1)` the
answer should be `(3,-2)`.  BiCG and BiCR with the hybrid preconditioner are therefore run with an inconsistent pair of
preconditioners when `A` is not Hermitian.  src/precon/lis_precon_hybrid.c:238-317 -/
theorem psolveh_hybrid_wrong :
    ((psolvehHybrid hyKit (lisBicgstab 77 hyOpts) true hySt 5 6 (hyHeap [3, 1])).map fun r => (r.1 6).value.toList) =
      some [2, 1] ∧
    (matvechCsr hyA (.ofList [2, 1]) (.ofList [0, 0])).map Arr.toList = some [2, 3] ∧
    (matvechCsr hyA (.ofList [3, -2]) (.ofList [0, 0])).map Arr.toList = some [3, 1] := by decide +kernel

/-- Finding: with an inner GPBiCG the preconditioner is not a function of `B`: applied to `(3,1)` twice, with an application
to `(1,5)` in between (one iteration each), it gives different results. -/
theorem hybrid_gpbicg_not_fixed :
    ((psolveHybrid hyKit (lisGpbicg 77 { hyOpts with maxiter := 1 }) true hySt 5 6 (hyHeap [3, 1])).bind fun r1 =>
      (psolveHybrid hyKit (lisGpbicg 77 { hyOpts with maxiter := 1 }) true r1.2 5 6 (hyHeap [1, 5])).bind fun r2 =>
      (psolveHybrid hyKit (lisGpbicg 77 { hyOpts with maxiter := 1 }) true r2.2 5 6 (hyHeap [3, 1])).map fun r3 =>
        decide ((r1.1 6).value.toList = (r3.1 6).value.toList)) = some false := by decide +kernel

/-- … with an inner BiCGSTAB it gives the same -/
example :
    ((psolveHybrid hyKit (lisBicgstab 77 { hyOpts with maxiter := 1 }) true hySt 5 6 (hyHeap [3, 1])).bind fun r1 =>
      (psolveHybrid hyKit (lisBicgstab 77 { hyOpts with maxiter := 1 }) true r1.2 5 6 (hyHeap [1, 5])).bind fun r2 =>
      (psolveHybrid hyKit (lisBicgstab 77 { hyOpts with maxiter := 1 }) true r2.2 5 6 (hyHeap [3, 1])).map fun r3 =>
        decide ((r1.1 6).value.toList = (r3.1 6).value.toList)) = some true := by decide +kernel

/-- Finding: the status of the inner solver is ignored.  Here the inner CG breaks down in its first step (`⟨p, A p⟩ = 0`) and
the preconditioner answers `X = 0` for a nonzero `B`, and reports success. -/
theorem hybrid_status_ignored :
    let A : Csr ℚ := ⟨2, 2, 2, .ofList [0, 1, 2], .ofList [1, 0], .ofList [1, 1]⟩
    let K : AKit ℚ ℚ := krylovKit (matvecCsr A) (matvechCsr A) psolveNone psolveNone (fun x => x) abs none none
    ((psolveHybrid K (lisCg 77 hyOpts) true hySt 5 6 (hyHeap [3, 0])).map fun r => (r.1 6).value.toList) = some [0, 0] := by
  decide +kernel

/-- a whole outer run with the hybrid preconditioner: BiCGSTAB inside CGS -/
example : ((lisCgs 77 hyOpts).execP hyKit (psolveHybrid hyKit (lisBicgstab 77 hyOpts) true)
    (psolvehHybrid hyKit (lisBicgstab 77 hyOpts) true) ⟨fun v => if v = hB then hyVec [3, 1] else hyVec [0, 0], ⟨27, fun _ => 0⟩⟩
    hySt).map (fun r => (r.1.ret, r.1.iter, (r.2.1.h hX).value.toList)) = some (.success, 1, [2, 1]) := by decide +kernel

end runs

end Lis
