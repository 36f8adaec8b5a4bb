import Verif.Props.ArraySolve

/-! `lis_array_solve` stays inside its arrays whatever the numbers are (no law on the scalars) -/

namespace Lis
variable {R : Type} [Zero R] [One R] [Sub R] [Mul R] [Div R]

theorem luElim_defined (n : ℕ) (w : Arr R) (hw : n * n ≤ w.size) : Ok (luElim n w) fun w' => w'.size = w.size := by
  unfold luElim
  refine Ok_loop_le (fun _ w' => w'.size = w.size) (Nat.zero_le n) rfl ?_ fun w' h => h
  intro k u _ hk hu
  simp only [Ok_bind, Ok_rd, Ok_wr]
  refine ⟨el_lt (by omega) hk hk, el_lt (by omega) hk hk, ?_⟩
  refine Ok_loop_le (fun _ w' => w'.size = w.size) hk hu ?_ fun w' h => h
  intro i v hi1 hi hv
  simp only [Ok_bind, Ok_rd, Ok_wr]
  refine ⟨el_lt (by omega) hi hk, el_lt (by omega) hk hk, ?_⟩
  refine Ok_loop_le (fun _ w' => w'.size = w.size) hk hv ?_ fun w' h => ⟨el_lt (by omega) hi hk, h⟩
  intro j z hj1 hj hz
  simp only [Ok_bind, Ok_rd, Ok_wr]
  exact ⟨el_lt (by omega) hi hj, el_lt (by omega) hk hj, el_lt (by omega) hi hj, hz⟩

theorem arraySolve_defined (n : ℕ) (a b x w : Arr R) (ha : n * n ≤ a.size) (hb : n ≤ b.size) (hx : n ≤ x.size)
    (hw : n * n ≤ w.size) : Ok (arraySolve n a b x w) fun r => r.1.size = x.size ∧ r.2.size = w.size := by
  unfold arraySolve
  rw [Ok_bind]
  refine (Ok_copyN (n * n) a w ha hw).mono ?_
  rintro w' ⟨hw', -, -⟩
  split
  · simp only [Ok_bind, Ok_rd, Ok_wr, Ok_pure]
    exact ⟨by omega, by omega, by omega, rfl, hw'⟩
  · simp only [Ok_bind, Ok_rd, Ok_wr, Ok_pure, Arr.set_size]
    refine ⟨?_, ?_, ?_, ?_, ?_, ?_, ?_, ?_, ?_, ?_, ?_, ?_, ?_, ?_, ?_, ?_, ?_, ?_, ?_, ?_, ?_, ?_, ?_, ?_, ?_, ?_, ?_, trivial, hw'⟩ <;> omega
  · rw [Ok_bind]
    refine (luElim_defined n w' (by omega)).mono fun w2 hw2 => ?_
    rw [Ok_bind]
    have hmul : ∀ (x' : Arr R) (i j : ℕ), x'.size = x.size → i < n → j < n → Ok (do
        let xi ← x'.rd i
        let p ← mulAt id w2 x' (i + j * n) j
        x'.wr i (xi - p)) fun y => y.size = x.size := by
      intro x' i j h hi hj
      simp only [mulAt, Ok_bind, Ok_rd, Ok_wr, Ok_pure]
      exact ⟨by omega, el_lt (by omega) hi hj, by omega, by omega, h⟩
    have hfw : Ok (loop 0 n x fun i x => do
        let v ← b.rd i
        let x ← x.wr i v
        loop 0 i x fun j x => do
          let xi ← x.rd i
          let p ← mulAt id w2 x (i + j * n) j
          x.wr i (xi - p)) fun y => y.size = x.size := by
      refine Ok_loop_le (fun _ y => y.size = x.size) (Nat.zero_le n) rfl ?_ fun y h => h
      intro i y _ hi hy
      simp only [Ok_bind, Ok_rd, Ok_wr]
      refine ⟨by omega, by omega, ?_⟩
      refine Ok_loop_le (fun _ y => y.size = x.size) (Nat.zero_le i) (by simpa using hy) ?_ fun y h => h
      intro j y _ hj hy
      have := hmul y i j hy hi (by omega)
      simpa only [Ok_bind, Ok_rd, Ok_wr] using this
    refine hfw.mono fun y hy => ?_
    rw [Ok_bind]
    refine (Ok_loopDown (fun _ y => y.size = x.size) (Nat.zero_le n) hy ?_ fun y h => h).mono fun y h => ?_
    · intro i y _ hi hy
      rw [Ok_bind]
      refine (Ok_loop_le (fun _ y => y.size = x.size) hi hy ?_ fun y h => h).mono fun y h => ?_
      · intro j y hj1 hj hy
        exact hmul y i j hy hi hj
      · simp only [Ok_bind, Ok_rd, Ok_wr]
        exact ⟨by omega, el_lt (by omega) hi hi, by omega, h⟩
    · rw [Ok_pure]
      exact ⟨h, hw2.trans hw'⟩

end Lis
