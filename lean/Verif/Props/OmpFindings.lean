import Verif.Props.Omp
import Mathlib.Algebra.Ring.Int.Defs

/-!
# C35: races and team-size assumptions in the OpenMP code, and examples

Each race is shown by an execution of the region that ends normally with a result the serial code cannot give.
-/

namespace Lis

/-- an interleaving that ends normally with the given contents of block `b` -/
def Ends (T : ℕ) (p : ℕ → Thr ℤ Unit) (m : Mem ℤ) (b : ℕ) (out : List ℤ) : Prop :=
  ∃ d, Team.Steps T ⟨m, p⟩ d ∧ d.Done T ∧ (d.mem b).toList = out

theorem Ends.of_run {T : ℕ} {p : ℕ → Thr ℤ Unit} {m : Mem ℤ} {b : ℕ} {out : List ℤ} (l : List ℕ)
    (h1 : ∀ t ∈ l, t < T)
    (h2 : (Team.runL l ⟨m, p⟩).map (fun d => ((List.range T).map fun t => (d.thr t).isRet, (d.mem b).toList)) =
      some (List.replicate T true, out)) : Ends T p m b out := by
  cases hr : Team.runL l ⟨m, p⟩ with
  | none => rw [hr] at h2; cases h2
  | some d =>
    rw [hr] at h2
    simp only [Option.map_some, Option.some.injEq, Prod.mk.injEq] at h2
    refine ⟨d, Team.runL_steps l h1 hr, fun t ht => Thr.isRet_eq ?_, h2.2⟩
    have := List.getElem_of_eq h2.1 (i := t) (by simpa using ht)
    simpa using this

/-- so `ompParallel` fails for any claim that excludes this outcome -/
theorem Ends.refutes {T : ℕ} {p : ℕ → Thr ℤ Unit} {m : Mem ℤ} {b : ℕ} {out : List ℤ} (h : Ends T p m b out)
    {φ : Mem ℤ → Prop} (hφ : ∀ m', φ m' → (m' b).toList ≠ out) : ¬ ompParallel T p m φ := by
  obtain ⟨d, hs, hd, ho⟩ := h
  intro ha
  rcases ompParallel_reach ha hs with ⟨_, h⟩ | ⟨h, _⟩
  · exact hφ _ h ho
  · exact h hd

/-- thread `t` runs iteration `t` only -/
def oneEach (t : ℕ) : List ℕ := [t]

/-- memory with blocks `x`, `y`, `w` and one more -/
def exMem (x y w t : List ℤ) : Mem ℤ := fun b =>
  if b = 0 then .ofList x else if b = 1 then .ofList y else if b = 2 then .ofList w else .ofList t

/-- `lis_vector_swap` with two threads: the shared `t` is overwritten between the two uses, and an element of `y`
is lost — both elements of `x` receive the same value -/
theorem vectorSwapOmp_race :
    Ends 2 (vectorSwapOmp oneEach) (exMem [1, 2] [10, 20] [0] []) 0 [20, 20] :=
  Ends.of_run [0, 0, 1, 1, 0, 0, 0, 0, 1, 1, 1, 1] (by decide) (by decide)

/-- the serial swap gives `[10, 20]` -/
theorem vectorSwapOmp_wrong : ¬ ompParallel 2 (vectorSwapOmp oneEach) (exMem [1, 2] [10, 20] [0] [])
    (fun m => (m 0).toList = [10, 20]) :=
  vectorSwapOmp_race.refutes fun m h e => by rw [h] at e; exact absurd e (by decide)

/-- two block columns with an element in the same block row: `[5 7; 0 0]` with 1×1 blocks -/
def exBscRace : Bsc ℤ := ⟨2, 2, 2, 1, 1, 2, .ofList [0, 1, 2], .ofList [0, 0], .ofList [5, 7]⟩

example : exBscRace.WF := by
  refine ⟨⟨by decide, by decide, by decide, by decide⟩, by decide, by decide, by decide, by decide, by decide, by decide⟩

/-- `lis_matvec_bsc` with two threads: both read `y[0] = 0`, one contribution is lost -/
theorem matvecBscOmp_race :
    Ends 2 (matvecBscOmp2 exBscRace oneEach) (exMem [1, 1] [0, 0] [] []) 1 [7, 0] :=
  Ends.of_run [0, 1, 0, 1, 0, 1] (by decide) (by decide)

/-- the serial kernel gives `[12, 0]` -/
example : (matvecBsc exBscRace (.ofList [1, 1]) (.ofList [3, 3])).map Arr.toList = some [12, 0] := by decide

theorem matvecBscOmp_wrong : ¬ ompParallel 2 (matvecBscOmp2 exBscRace oneEach) (exMem [1, 1] [0, 0] [] [])
    (fun m => (m 1).toList = [12, 0]) :=
  matvecBscOmp_race.refutes fun m h e => by rw [h] at e; exact absurd e (by decide)

/-- last loop of `lis_matvech_dia` with two threads and buffers `[1 2]`, `[10 20]` (sums 11 and 22): the shared
accumulator `t` mixes the two sums -/
theorem matvechDiaOmp_race :
    Ends 2 (matvechDiaOmp3 2 2 oneEach) (exMem [] [0, 0] [1, 2, 10, 20] [0]) 1 [33, 33] :=
  Ends.of_run [0, 1, 0, 0, 0, 1, 1, 1, 0, 0, 0, 1, 1, 1, 0, 0, 1, 1] (by decide) (by decide)

theorem matvechDiaOmp_wrong : ¬ ompParallel 2 (matvechDiaOmp3 2 2 oneEach) (exMem [] [0, 0] [1, 2, 10, 20] [0])
    (fun m => (m 1).toList = [11, 22]) :=
  matvechDiaOmp_race.refutes fun m h e => by rw [h] at e; exact absurd e (by decide)

/-- `lis_matvec_dns` when the team is smaller than `omp_get_max_threads()`: rows of the missing thread keep their
old contents (77) -/
theorem matvecDnsOmp_small_team :
    Ends 1 (matvecDnsOmp (⟨2, 2, .ofList [1, 2, 3, 4]⟩ : Dns ℤ) 2) (exMem [1, 1] [77, 77] [] []) 1 [4, 77] :=
  Ends.of_run (List.replicate 7 0) (by decide) (by decide)

/-! ### examples -/

/-- two threads, the second runs its iterations backwards; and a team of one with `nprocs = 2` -/
def exSched (t : ℕ) : List ℕ := if t = 0 then [1] else [2, 0]
def exSched1 (n t : ℕ) : List ℕ := if t = 0 then List.range n else []

instance (n T : ℕ) (s : ℕ → List ℕ) : Decidable (Schedule n T s) := inferInstanceAs (Decidable (List.Perm _ _))

example : Schedule 3 2 exSched := by decide
example : Schedule 2 1 (exSched1 2) ∧ Schedule 3 1 (exSched1 3) := by decide
/-- a thread may have no iteration -/
example : Schedule 1 3 (fun t => if t = 2 then [0] else []) := by decide

/-- `[1 2 0; 0 3 4; 5 0 6]` -/
def exOmpCsr : Csr ℤ := ⟨3, 3, 6, .ofList [0, 2, 4, 6], .ofList [0, 1, 1, 2, 0, 2], .ofList [1, 2, 3, 4, 5, 6]⟩

example : exOmpCsr.WF := ⟨⟨by decide, by decide, by decide, by decide⟩, by decide, by decide, by decide⟩

/-- the hypotheses of the kernel theorems hold here -/
example : ∃ y, matvecCsr exOmpCsr (exMem [1, 10, 100] [0, 0, 0] [] [] 0) (exMem [1, 10, 100] [0, 0, 0] [] [] 1) = some y ∧
    y.toList = [21, 430, 605] := ⟨_, rfl, by decide⟩

/-- one interleaving, run step by step: three accesses per row, then the write -/
example : Ends 2 (matvecCsrOmp exOmpCsr exSched) (exMem [1, 10, 100] [0, 0, 0] [] []) 1 [21, 430, 605] :=
  Ends.of_run [1, 0, 1, 0, 0, 1, 1, 1, 1] (by decide) (by decide)

end Lis
