import Verif.Model.Memory

/-!
# Histories of the tracked allocator

`MemHist s live`: the calls made so far led to the state `s`, and the user holds the blocks `live`
(address, size), the newest last.  The C allocator answers `r` with a block that overlaps no live one; the
user frees and reallocates only blocks it holds.
-/

namespace Lis

/-- the C allocator may answer `r` to a request for `n` bytes -/
def FreshBlock (s : MemSt) (r n : Nat) : Prop :=
  r ≠ 0 ∧ 0 < n ∧ ∀ b ∈ s.raw, r + n ≤ b.1 ∨ b.1 + b.2 ≤ r

/-- node number `id` may be used for a new node -/
def FreshNode (s : MemSt) (id : Nat) : Prop := s.alive id = false

/-- a history of calls -/
inductive MemHist : MemSt → List (Nat × Nat) → Prop
  | init (mem : Nat → Nat) (junk : Nat → MNode) : MemHist (memInit mem junk) []
  | malloc {s s' : MemSt} {live : List (Nat × Nat)} {size r id p : Nat} : MemHist s live →
      FreshBlock s r (size + 16) → FreshNode s id → lisMalloc s size r id = some (p, s') →
      MemHist s' (live ++ [(p, size)])
  | calloc {s s' : MemSt} {live : List (Nat × Nat)} {size r id p : Nat} : MemHist s live →
      FreshBlock s r (size + 16) → FreshNode s id → lisCalloc s size r id = some (p, s') →
      MemHist s' (live ++ [(p, size)])
  | realloc {s s' : MemSt} {a b : List (Nat × Nat)} {p old size r q : Nat} : MemHist s (a ++ (p, old) :: b) →
      FreshBlock s r (size + 16) → lisRealloc s p size r = some (q, s') → MemHist s' (a ++ (q, size) :: b)
  | free {s s' : MemSt} {a b : List (Nat × Nat)} {p size : Nat} : MemHist s (a ++ (p, size) :: b) →
      lisFree s p = some s' → MemHist s' (a ++ b)
  /-- the user writes into its own block -/
  | write {s : MemSt} {live : List (Nat × Nat)} {p size i v : Nat} : MemHist s live → (p, size) ∈ live →
      i < size → MemHist { s with mem := fun j => if j = p + i then v else s.mem j } live

end Lis
