import Verif.Props.MpiSolver
import Mathlib.Tactic.IntervalCases

/-!
# C34: non-trivial instances, and the read of `import_index[0]` on a rank that needs nothing
-/

namespace Lis
open Finset

/-! ### an instance

Two ranks; the `3 × 3` matrix `[[1,0,2],[0,3,0],[4,0,5]]`, rows `0,1` on rank 0 and row `2` on rank 1. -/

/-- the ranks' blocks, global column numbers -/
def exA (r : ℕ) : Csr ℤ :=
  if r = 0 then ⟨2, 3, 3, Arr.ofList [0, 2, 3], Arr.ofList [0, 2, 1], Arr.ofList [1, 2, 3]⟩
  else ⟨1, 3, 2, Arr.ofList [0, 2], Arr.ofList [0, 2], Arr.ofList [4, 5]⟩
def exRg (r : ℕ) : ℕ := (Arr.ofList [0, 2, 3]).get r
def exG (i j : ℕ) : ℤ := (Arr.ofList [1, 0, 2, 0, 3, 0, 4, 0, 5]).get (3 * i + j)

theorem exA_wf : ∀ r, r < 2 → (exA r).WF := by
  intro r hr
  obtain rfl | rfl : r = 0 ∨ r = 1 := by omega
  · exact ⟨⟨by decide, by decide, by decide, by decide⟩, by decide, by decide, by decide⟩
  · exact ⟨⟨by decide, by decide, by decide, by decide⟩, by decide, by decide, by decide⟩

theorem exDist : DistMatrix 2 3 exRg exA exG where
  part := ⟨by decide, by decide, by decide⟩
  wf := exA_wf
  np := by decide
  n := by decide
  entry := by decide

/-- each rank needs an element of the other: the hypothesis on `import_index` holds with no slack -/
example : ∀ r, r < 2 → NeedsRemote exRg exA r := by
  intro r hr
  obtain rfl | rfl : r = 0 ∨ r = 1 := by omega
  · exact ⟨1, by decide, by decide⟩
  · exact ⟨0, by decide, by decide⟩

example : KnowsRanges 2 exRg fun _ => Arr.ofList [0, 2, 3] := fun _ _ => by
  exact ⟨by decide +revert, by decide +revert⟩
example : DistVec 2 exRg (fun r => if r = 0 then Arr.ofList [7, 8] else Arr.ofList [(9 : ℤ)]) fun i => 7 + i := by
  intro r hr
  obtain rfl | rfl : r = 0 ∨ r = 1 := by omega
  · refine ⟨by decide, fun i hi => ?_⟩
    have : i < 2 := by have : 0 + i < 2 := hi; omega
    interval_cases i <;> decide
  · refine ⟨by decide, fun i hi => ?_⟩
    have : 2 + i < 3 := hi
    obtain rfl : i = 0 := by omega
    decide

/-- a partition may leave ranks without rows -/
example : IsPartition 4 3 fun r => if r = 0 then 0 else if r ≤ 2 then 2 else 3 := ⟨by decide, by decide, by decide⟩

/-- every global heap can be distributed over the ranks: the hypothesis of `mpi_solver` on the vectors can always be met -/
example {R : Type} [NonUnitalNonAssocSemiring R] {gn P : ℕ} (rg n : ℕ → ℕ) (g : MHeap R gn) :
    DistHeap P rg n (fun r v => ⟨n r, ⟨n r, fun i => globalFun (g v) (rg r + i)⟩⟩) g :=
  fun _ _ => ⟨fun _ => ⟨rfl, le_rfl⟩, rfl⟩

/-- `mpi_krylov` applies to every distributed real matrix, right-hand side and initial guess (no preconditioner, one thread
per rank, 10 iterations, tolerance 1/2) -/
example {P gn : ℕ} {rg : ℕ → ℕ} {A : ℕ → Csr ℝ} {G : ℕ → ℕ → ℝ} (hm : DistMatrix P gn rg A G) {ranges : ℕ → Arr ℕ}
    (hrg : KnowsRanges P rg ranges) (J : ℕ → CommJunk ℝ) (hJ : ∀ r, 1 ≤ (J r).slack) (b x0 : Fin gn → ℝ) (k : Krylov) :=
  mpi_krylov hm hrg (fun _ _ => 0) (fun _ _ => 0) J (fun r _ => .inl (hJ r)) (fun _ _ _ => 0)
    (aps := fun _ => psolveNone) (apsh := fun _ => psolveNone) mpi_psolveNone mpi_psolveNone Real.sqrt_nonneg abs_nonneg
    (omp := fun _ => none) (fun _ _ => trivial) k ⟨10, false, .nrm2B, false, 1 / 2, 1, none⟩ (by norm_num) (by simp) 0
    (h := fun r v => ⟨(A r).n, ⟨(A r).n, fun i => globalFun (if v = hB then b else x0) (rg r + i)⟩⟩)
    (g := fun v => if v = hB then b else x0) (fun _ _ => ⟨fun _ => ⟨rfl, le_rfl⟩, rfl⟩) (hist := ⟨20, fun _ => 0⟩) (by decide) (by simp)

/-! ### the read of `import_index[0]` -/

/-- uninitialised blocks with nothing readable beyond their ends -/
def strictJunk : CommJunk ℤ := ⟨fun _ => 0, fun _ => 0, fun _ => 0, fun _ => 0, fun _ => 0, fun _ => 0, fun _ => 0, fun _ => 0, fun _ => 0, 0⟩

/-- the `1 × 1` matrix `[1]` on one rank -/
def oneByOne : Csr ℤ := ⟨1, 1, 1, Arr.ofList [0, 1], Arr.ofList [0], Arr.ofList [1]⟩

/-- **Defect.** On a rank that needs no remote column `lis_send_recv` evaluates `import_index[0]` of a block of zero
elements (src/matrix/lis_matrix_mpi.c:618, :934): with one rank and the matrix `[1]` the call of `lis_matvec` reads
outside the array.  (`mpi_matvec` therefore asks for `slack ≥ 1` there; every `malloc` that returns a readable
non-null block for size 0 provides it.) -/
theorem mpi_matvec_no_remote :
    DistMatrix 1 1 (fun r => r) (fun _ => oneByOne) (fun _ _ => 1) ∧ KnowsRanges 1 (fun r => r) (fun _ => Arr.ofList [0, 1]) ∧
    ¬ AllSchedules 1 (fun r => do
        let (A', ct) ← mpiAssembleCsr (fun _ => 0) (fun _ => 0) strictJunk 1 (Arr.ofList [0, 1]) 1 r (r + 1) oneByOne
        mpiMatvecCsr (fun _ => 0) A' ct (Arr.ofList [5]) (Arr.ofList [0])) fun _ _ => True := by
  refine ⟨⟨⟨rfl, by decide, rfl⟩, fun _ _ => ⟨⟨by decide, by decide, by decide, by decide⟩, by decide, by decide, by decide⟩,
    fun _ _ => rfl, fun _ _ => rfl, by decide⟩, fun _ _ => by exact ⟨by decide +revert, by decide +revert⟩, fun h => ?_⟩
  exact h.no_fail (r := 0) (.head ⟨0, by omega, rfl⟩ (.head ⟨0, by omega, rfl⟩ (.head ⟨0, by omega, rfl⟩ (.head ⟨0, by omega, rfl⟩ (.refl _))))) (by omega) rfl

end Lis
