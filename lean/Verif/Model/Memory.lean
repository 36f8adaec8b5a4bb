import Verif.Base.C

/-!
# Tracked memory (src/system/lis_memory.c)

Addresses are natural numbers (`unsigned long` without wrap-around), 0 is `NULL`.  `raw` lists the live
blocks of the C allocator as (address, size), `mem` is the byte memory.  The C allocator is a parameter:
every function that calls `malloc` takes the address it returns.  The list nodes are numbered, `top` is node
0; `malloc` of a node gives a number that is not in use and succeeds.  `none` is undefined behaviour: an
access to a node that does not exist, `free` of something that is no live block, an access to bytes outside
the live blocks.  The build has no malloc tags.
-/

namespace Lis

/-- `malloc_address`. src/system/lis_memory.c:63-70 -/
structure MNode where
  next : Nat
  prev : Nat
  address : Nat
  real : Nat
  size : Nat
  deriving DecidableEq

structure MemSt where
  alive : Nat → Bool
  node : Nat → MNode
  raw : List (Nat × Nat)
  mem : Nat → Nat

/-- `malloc_address_top` before anything is allocated. src/system/lis_memory.c:72-73 -/
def memInit (mem : Nat → Nat) (junk : Nat → MNode) : MemSt :=
  ⟨fun i => i == 0, fun i => if i = 0 then ⟨0, 0, 0, 0, 0⟩ else junk i, [], mem⟩

/-- read a node -/
def MemSt.nd (s : MemSt) (i : Nat) : Option MNode := if s.alive i then some (s.node i) else none

/-- write a node -/
def MemSt.wrNd (s : MemSt) (i : Nat) (f : MNode → MNode) : Option MemSt :=
  if s.alive i then some { s with node := fun j => if j = i then f (s.node i) else s.node j } else none

/-- a C allocation of `n` bytes that returned `r` (0: failure) -/
def MemSt.cmalloc (s : MemSt) (r n : Nat) : MemSt := if r = 0 then s else { s with raw := s.raw ++ [(r, n)] }

/-- C `free` -/
def MemSt.cfree (s : MemSt) (r : Nat) : Option MemSt :=
  if r = 0 then some s
  else match s.raw.find? (fun b => b.1 = r) with
    | some b => some { s with raw := s.raw.erase b }
    | none => none

/-- are the `n` bytes from `a` inside one live block? -/
def MemSt.within (s : MemSt) (a n : Nat) : Bool := s.raw.any fun b => b.1 ≤ a ∧ a + n ≤ b.1 + b.2

/-- `memset(a,0,n)` -/
def MemSt.memset0 (s : MemSt) (a n : Nat) : Option MemSt :=
  if s.within a n then some { s with mem := fun i => if a ≤ i ∧ i < a + n then 0 else s.mem i } else none

/-- `memcpy(d,a,n)` -/
def MemSt.memcpy (s : MemSt) (d a n : Nat) : Option MemSt :=
  if s.within d n ∧ s.within a n then
    some { s with mem := fun i => if d ≤ i ∧ i < d + n then s.mem (a + (i - d)) else s.mem i }
  else none

/-- `addr.l += 0xf; addr.l &= ~0xf;`. src/system/lis_memory.c:117-118 -/
def align16 (a : Nat) : Nat := (a + 15) / 16 * 16

/-- `lis_malloc`; `r` is the answer of `malloc(size+16)` and `id` the new node.
src/system/lis_memory.c:100-128 -/
def lisMalloc (s : MemSt) (size r id : Nat) : Option (Nat × MemSt) := do
  let s := s.cmalloc r (size + 16)
  let s := { s with alive := fun i => i == id || s.alive i }
  let s ← s.wrNd id fun m => { m with next := 0 }
  let top ← s.nd 0
  let s ← s.wrNd id fun m => { m with prev := top.prev }
  let m ← s.nd id
  let s ← s.wrNd m.prev fun m => { m with next := id }
  let m ← s.nd id
  let s ← s.wrNd m.next fun m => { m with prev := id }
  let s ← s.wrNd id fun m => { m with real := r }
  let s ← s.wrNd id fun m => { m with size := size }
  let s ← s.wrNd id fun m => { m with address := align16 r }
  pure (align16 r, s)

/-- `lis_calloc`. src/system/lis_memory.c:130-159 -/
def lisCalloc (s : MemSt) (size r id : Nat) : Option (Nat × MemSt) := do
  let (p, s) ← lisMalloc s size r id
  let s ← s.memset0 p size
  pure (p, s)

/-- `ma = malloc_address_top.next; while (ma->address) { if (ma->address == p) break; ma = ma->next; }`.
src/system/lis_memory.c:172-177, 202-206, 314-319 -/
def memSearch (s : MemSt) (p : Nat) : Option Nat := do
  let top ← s.nd 0
  whileL (fun ma => (s.nd ma).bind fun m => some (m.address != 0 && m.address != p))
    (fun ma => (s.nd ma).bind fun m => some m.next) top.next

/-- `lis_realloc`; `r` is the answer of `malloc(size+16)`. The C `realloc` of an untracked pointer is not
modelled (`none`). src/system/lis_memory.c:161-196 -/
def lisRealloc (s : MemSt) (p size r : Nat) : Option (Nat × MemSt) := do
  let ma ← memSearch s p
  let m ← s.nd ma
  if m.address ≠ 0 then do
    let oldSize := m.size
    let s := s.cmalloc r (size + 16)
    let s ← s.memcpy (align16 r) p oldSize
    let s ← s.cfree m.real
    let s ← s.wrNd ma fun m => { m with address := align16 r }
    let s ← s.wrNd ma fun m => { m with real := r }
    let s ← s.wrNd ma fun m => { m with size := size }
    pure (align16 r, s)
  else none

/-- `lis_free`. src/system/lis_memory.c:198-219 -/
def lisFree (s : MemSt) (p : Nat) : Option MemSt := do
  let ma ← memSearch s p
  let m ← s.nd ma
  if m.address ≠ 0 then do
    let s ← s.wrNd m.next fun n => { n with prev := m.prev }
    let m ← s.nd ma
    let s ← s.wrNd m.prev fun n => { n with next := m.next }
    let s ← s.cfree m.real
    pure { s with alive := fun i => i != ma && s.alive i }
  else s.cfree p

/-- `lis_free_all`: the nodes are not freed either. src/system/lis_memory.c:283-308 -/
def lisFreeAll (s : MemSt) : Option MemSt := do
  let top ← s.nd 0
  let (s, _) ← whileL (fun x : MemSt × Nat => (x.1.nd x.2).bind fun m => some (m.address != 0))
    (fun x => do
      let m ← x.1.nd x.2
      let bak := m.next
      let s ← x.1.wrNd x.2 fun m => { m with real := 0 }
      pure (s, bak)) (s, top.next)
  s.wrNd 0 fun _ => ⟨0, 0, 0, 0, 0⟩

/-- `lis_is_malloc`. src/system/lis_memory.c:310-325 -/
def lisIsMalloc (s : MemSt) (p : Nat) : Option Bool := do
  let ma ← memSearch s p
  let m ← s.nd ma
  pure (m.address != 0)

end Lis
