import Verif.Base.C

/-!
# Hash table (src/system/lis_hash.c)

A bucket is the chain of nodes hanging from `hashtable[h]`, first node first, so a chain is a list of
`(index, value)` pairs; `malloc` of a node succeeds.  `index % 1021` is C's truncated remainder.
-/

namespace Lis

/-- `LIS_HASHTABLE_SIZE`. src/system/lis_hash.c:60 -/
def hashSize : Nat := 1021

abbrev HashTable := Arr (List (Int × Int))

/-- `lis_hashtable_create`: all buckets `NULL`. src/system/lis_hash.c:62-84 -/
def hashCreate : HashTable := ⟨hashSize, fun _ => []⟩

/-- `lis_hashtable_clear`. src/system/lis_hash.c:110-134 -/
def hashClear (h : HashTable) : Option HashTable :=
  loop 0 hashSize h fun i h => do
    let _ ← h.rd i
    h.wr i []

/-- walk along a chain: the first node whose index matches. src/system/lis_hash.c:145-148, 187-190 -/
def chainFind (index : Int) : List (Int × Int) → Option Int
  | [] => none
  | (i, v) :: l => if i = index then some v else chainFind index l

/-- `lis_hashtable_search`: `none` for `NULL`. src/system/lis_hash.c:136-151 -/
def hashSearch (h : HashTable) (index : Int) : Option (Option Int) := do
  let l ← h.rdI (index.tmod hashSize)
  pure (chainFind index l)

/-- `lis_hashtable_set_value`: a new node in front of the chain. src/system/lis_hash.c:153-177 -/
def hashSet (h : HashTable) (index value : Int) : Option HashTable := do
  let l ← h.rdI (index.tmod hashSize)
  h.wrI (index.tmod hashSize) ((index, value) :: l)

/-- `lis_hashtable_get_value`. src/system/lis_hash.c:179-194 -/
def hashGet (h : HashTable) (index : Int) : Option Int := do
  let l ← h.rdI (index.tmod hashSize)
  match chainFind index l with
  | some v => pure v
  | none => pure 0

end Lis
