import Verif.Model.Bswap
import Verif.Base.Lists2

/-! # C36: byte swapping -/

namespace Lis
variable {β : Type}

theorem bswap_spec {w m n : ℕ} (hm : m ≤ w) (buf : Arr β) (h : w * n ≤ buf.size) :
    Ok (bswap w m n buf) fun b => b.size = buf.size ∧
      (∀ i k, i < n → k < w → b.get (w * i + k) = if k < m then buf.get (w * i + (m - 1 - k)) else buf.get (w * i + k)) ∧
      ∀ q, w * n ≤ q → b.get q = buf.get q := by
  unfold bswap
  refine Ok_loop_le (fun i (b : Arr β) => b.size = buf.size ∧
      (∀ j k, j < i → k < w → b.get (w * j + k) = if k < m then buf.get (w * j + (m - 1 - k)) else buf.get (w * j + k)) ∧
      ∀ q, w * i ≤ q → b.get q = buf.get q) (Nat.zero_le _) ⟨rfl, fun j k h1 => by omega, fun _ _ => rfl⟩ ?_ (fun _ h => h)
  rintro i b _ hi ⟨hs, hd, hr⟩
  have hin : ∀ k, k < w → w * i + k < buf.size := fun k hk => by
    have := flat_lt hi hk
    rw [Nat.mul_comm i w, Nat.mul_comm n w] at this
    omega
  rw [Ok_bind]
  refine Ok_loop_le (fun k (t : Arr β) => t.size = w ∧ ∀ q, q < k → t.get q = buf.get (w * i + q)) (Nat.zero_le _)
    ⟨rfl, fun q hq => by omega⟩ ?_ ?_
  · rintro k t _ hk ⟨t1, t2⟩
    simp only [Ok_bind, Ok_rd, Ok_wr]
    have := hin k hk
    refine ⟨by omega, by omega, by simpa, fun q hq => ?_⟩
    rw [Arr.set_get]
    split
    · next hh => rw [hh, hr _ (by omega)]
    · exact t2 q (by omega)
  rintro t ⟨t1, t2⟩
  refine Ok_loop_le (fun k (c : Arr β) => c.size = buf.size ∧
      (∀ q, q < k → c.get (w * i + q) = buf.get (w * i + (m - 1 - q))) ∧
      ∀ q, (q < w * i ∨ w * i + k ≤ q) → c.get q = b.get q) (Nat.zero_le _)
    ⟨hs, fun q hq => by omega, fun _ _ => rfl⟩ ?_ ?_
  · rintro k c _ hk ⟨c1, c2, c3⟩
    simp only [Ok_bind, Ok_rd, Ok_wr]
    have := hin k (by omega)
    refine ⟨by omega, by omega, by simpa, fun q hq => ?_, fun q hq => ?_⟩
    · rw [Arr.set_get]
      split
      · next hh => rw [show q = k by omega, t2 _ (by omega)]
      · exact c2 q (by omega)
    · rw [Arr.set_get_ne _ _ (by omega)]; exact c3 q (by omega)
  rintro c ⟨c1, c2, c3⟩
  refine ⟨c1, fun j k hj hk => ?_, fun q hq => ?_⟩
  · by_cases hji : j = i
    · subst hji
      by_cases hkm : k < m
      · rw [if_pos hkm, c2 k hkm]
      · rw [if_neg hkm, c3 _ (by omega), hr _ (by omega)]
    · have := Nat.mul_le_mul_left w (show j + 1 ≤ i by omega)
      rw [Nat.mul_add, Nat.mul_one] at this
      rw [c3 _ (by omega)]
      exact hd j k (by omega) hk
  · rw [Nat.mul_add, Nat.mul_one] at hq
    rw [c3 q (by omega)]; exact hr q (by omega)

/-- **C36 (reversal).** `lis_bswap_int` (32-bit LIS_INT) reverses the four bytes of each of the `n` elements and
touches nothing else. -/
theorem bswapInt32_spec (n : ℕ) (buf : Arr β) (h : 4 * n ≤ buf.size) :
    Ok (bswapInt32 n buf) fun b => b.size = buf.size ∧
      (∀ i k, i < n → k < 4 → b.get (4 * i + k) = buf.get (4 * i + (3 - k))) ∧ ∀ q, 4 * n ≤ q → b.get q = buf.get q := by
  refine (bswap_spec le_rfl buf h).mono ?_
  rintro b ⟨b1, b2, b3⟩
  exact ⟨b1, fun i k hi hk => by rw [b2 i k hi hk, if_pos hk], b3⟩

/-- **C36 (reversal).** `lis_bswap_double`, `lis_bswap_size_t`, and `lis_bswap_scalar` in the real build. -/
theorem bswapDouble_spec (n : ℕ) (buf : Arr β) (h : 8 * n ≤ buf.size) :
    Ok (bswapDouble n buf) fun b => b.size = buf.size ∧
      (∀ i k, i < n → k < 8 → b.get (8 * i + k) = buf.get (8 * i + (7 - k))) ∧ ∀ q, 8 * n ≤ q → b.get q = buf.get q := by
  refine (bswap_spec le_rfl buf h).mono ?_
  rintro b ⟨b1, b2, b3⟩
  exact ⟨b1, fun i k hi hk => by rw [b2 i k hi hk, if_pos hk], b3⟩

/-- **C36 (involution).** Every byte swap of the library, applied twice, restores the whole buffer. -/
theorem bswap_involution {w m n : ℕ} (hm : m ≤ w) (hw : 0 < w) (buf : Arr β) (h : w * n ≤ buf.size) :
    Ok (bswap w m n buf >>= bswap w m n) fun b => b.size = buf.size ∧ ∀ q, b.get q = buf.get q := by
  rw [Ok_bind]
  refine (bswap_spec hm buf h).mono ?_
  rintro b ⟨b1, b2, b3⟩
  refine (bswap_spec hm b (by omega)).mono ?_
  rintro c ⟨c1, c2, c3⟩
  refine ⟨by omega, fun q => ?_⟩
  by_cases hq : q < w * n
  · have hi : q / w < n := Nat.div_lt_of_lt_mul hq
    have hk : q % w < w := Nat.mod_lt _ hw
    have e := Nat.div_add_mod q w
    have h1 := c2 (q / w) (q % w) hi hk
    rw [e] at h1
    rw [h1]
    split
    · next hlt =>
      rw [b2 _ _ hi (by omega), if_pos (by omega)]
      congr 1; omega
    · next hlt =>
      have h2 := b2 (q / w) (q % w) hi hk
      rw [e, if_neg hlt] at h2
      exact h2
  · rw [c3 q (by omega), b3 q (by omega)]

theorem bswapInt32_involution (n : ℕ) (buf : Arr β) (h : 4 * n ≤ buf.size) :
    Ok (bswapInt32 n buf >>= bswapInt32 n) fun b => b.size = buf.size ∧ ∀ q, b.get q = buf.get q :=
  bswap_involution le_rfl (by omega) buf h
theorem bswapDouble_involution (n : ℕ) (buf : Arr β) (h : 8 * n ≤ buf.size) :
    Ok (bswapDouble n buf >>= bswapDouble n) fun b => b.size = buf.size ∧ ∀ q, b.get q = buf.get q :=
  bswap_involution le_rfl (by omega) buf h

/-- **C36, negative.** With a 64-bit LIS_INT (`_LONG__LONG`), `lis_bswap_int` does not reverse the bytes of an
element: it exchanges the first four and leaves the others. -/
theorem bswapInt64_not_reversal :
    (bswapInt64 1 (Arr.ofList [1, 2, 3, 4, 5, 6, 7, 8])).map Arr.toList = some [4, 3, 2, 1, 5, 6, 7, 8] := by decide
/-- **C36, negative.** In the complex build `lis_bswap_scalar` leaves the imaginary part as it was. -/
theorem bswapComplex_imag_unswapped (n : ℕ) (buf : Arr β) (h : 16 * n ≤ buf.size) :
    Ok (bswapComplex n buf) fun b => ∀ i k, i < n → 8 ≤ k → k < 16 → b.get (16 * i + k) = buf.get (16 * i + k) := by
  refine (bswap_spec (by omega) buf h).mono ?_
  rintro b ⟨_, b2, _⟩ i k hi h1 h2
  rw [b2 i k hi h2, if_neg (by omega)]

example : (bswapInt32 2 (Arr.ofList [1, 2, 3, 4, 5, 6, 7, 8, 9])).map Arr.toList = some [4, 3, 2, 1, 8, 7, 6, 5, 9] := by decide

end Lis
