import Verif.Model.Hash
import Mathlib.Data.Int.Notation
import Mathlib.Tactic.Common

/-! # C31: the hash table behaves like a map -/

namespace Lis

/-- one call on a hash table -/
inductive HashOp where
  | set (index value : ℤ)
  | clear

/-- run a history of calls -/
def hashRun (h : HashTable) : List HashOp → Option HashTable
  | [] => some h
  | .set i v :: ops => (hashSet h i v).bind fun h => hashRun h ops
  | .clear :: ops => (hashClear h).bind fun h => hashRun h ops

/-- the map a history stands for: the latest value inserted for `index` since the last clear -/
def histMap (index : ℤ) (m : Option ℤ) : List HashOp → Option ℤ
  | [] => m
  | .set i v :: ops => histMap index (if i = index then some v else m) ops
  | .clear :: ops => histMap index none ops

/-- the indices a history inserts are not negative -/
def HashOps.NonNeg (ops : List HashOp) : Prop := ∀ i v, HashOp.set i v ∈ ops → 0 ≤ i

/-- the table represents the map `m` -/
structure HashRep (h : HashTable) (m : ℤ → Option ℤ) : Prop where
  size : h.size = hashSize
  find : ∀ i : ℤ, 0 ≤ i → chainFind i (h.get (i.tmod hashSize).toNat) = m i

theorem hash_slot {i : ℤ} (hi : 0 ≤ i) : 0 ≤ i.tmod hashSize ∧ (i.tmod hashSize).toNat < hashSize := by
  have h : i.tmod hashSize = i % hashSize := Int.tmod_eq_emod_of_nonneg hi
  rw [h]
  have h1 := Int.emod_nonneg i (show ((hashSize : ℕ) : ℤ) ≠ 0 by decide)
  have h2 := Int.emod_lt_of_pos i (show (0 : ℤ) < ((hashSize : ℕ) : ℤ) by decide)
  exact ⟨h1, by omega⟩

theorem hashCreate_rep : HashRep hashCreate fun _ => none :=
  ⟨rfl, fun _ _ => rfl⟩

theorem hashSet_rep {h : HashTable} {m : ℤ → Option ℤ} (hr : HashRep h m) (index value : ℤ) (hi : 0 ≤ index) :
    Ok (hashSet h index value) fun h' => HashRep h' fun i => if index = i then some value else m i := by
  obtain ⟨h1, h2⟩ := hash_slot hi
  simp only [hashSet, Ok_bind, Ok_rdI, Ok_wrI]
  refine ⟨h1, by rw [hr.size]; exact h2, h1, by rw [hr.size]; exact h2, by simpa using hr.size, fun i hi' => ?_⟩
  rw [Arr.set_get]
  split
  · next e =>
    rw [chainFind]
    split
    · rfl
    · rw [← e, hr.find i hi']
  · next e =>
    have hne : index ≠ i := fun h => e (by rw [h])
    rw [hr.find i hi', if_neg hne]

theorem hashClear_rep {h : HashTable} (hs : h.size = hashSize) :
    Ok (hashClear h) fun h' => HashRep h' fun _ => none := by
  unfold hashClear
  refine Ok_loop_le (fun k g => g.size = hashSize ∧ ∀ j, j < k → g.get j = []) (Nat.zero_le _) ⟨hs, by omega⟩ ?_ ?_
  · rintro k g _ hk ⟨g1, g2⟩
    simp only [Ok_bind, Ok_rd, Ok_wr]
    refine ⟨by omega, by omega, by simpa using g1, fun j hj => ?_⟩
    rw [Arr.set_get]
    split
    · rfl
    · exact g2 j (by omega)
  · rintro g ⟨g1, g2⟩
    refine ⟨g1, fun i hi => ?_⟩
    rw [g2 _ (hash_slot hi).2]
    rfl

theorem hashRun_rep (ops : List HashOp) : ∀ {h : HashTable} {m : ℤ → Option ℤ}, HashRep h m → HashOps.NonNeg ops →
    Ok (hashRun h ops) fun h' => HashRep h' fun i => histMap i (m i) ops := by
  induction ops with
  | nil => intro h m hr _; exact ⟨h, rfl, hr⟩
  | cons op ops ih =>
    intro h m hr hn
    have hn' : HashOps.NonNeg ops := fun i v hm => hn i v (List.mem_cons_of_mem _ hm)
    cases op with
    | set i v =>
      simp only [hashRun, Ok_obind]
      exact (hashSet_rep hr i v (hn i v List.mem_cons_self)).mono fun h' hr' => ih hr' hn'
    | clear =>
      simp only [hashRun, Ok_obind]
      exact (hashClear_rep hr.size).mono fun h' hr' => ih hr' hn'

/-- C31: after any history of insertions (and clears) on a new table, `get_value` returns the latest value
inserted for the index since the last clear, 0 if there is none, and `search` tells the two cases apart -/
theorem hash_map (ops : List HashOp) (hn : HashOps.NonNeg ops) (index : ℤ) (hi : 0 ≤ index) :
    Ok (hashRun hashCreate ops) fun h =>
      hashGet h index = some ((histMap index none ops).getD 0) ∧
      hashSearch h index = some (histMap index none ops) := by
  refine (hashRun_rep ops hashCreate_rep hn).mono fun h hr => ?_
  obtain ⟨h1, h2⟩ := hash_slot hi
  have e : h.rdI (index.tmod hashSize) = some (h.get (index.tmod hashSize).toNat) := by
    have h2' : (index.tmod hashSize).toNat < h.size := by rw [hr.size]; exact h2
    simp [Arr.rdI, Arr.rd, h1, h2']
  have f := hr.find index hi
  unfold hashGet hashSearch
  rw [e]
  simp only [Option.bind_eq_bind, Option.bind_some, f]
  refine ⟨?_, rfl⟩
  cases histMap index none ops <;> rfl

/-- a negative index that is not a multiple of the table size addresses memory before the table -/
theorem hash_negative (h : HashTable) (index value : ℤ) (hi : index < 0) (hd : index % hashSize ≠ 0) :
    hashSet h index value = none ∧ hashGet h index = none ∧ hashSearch h index = none := by
  have hneg : ¬ 0 ≤ index.tmod hashSize := by
    intro h0
    have h1 : index.tmod hashSize = -((-index).tmod hashSize) := by rw [Int.neg_tmod]; simp
    have h2 : (-index).tmod hashSize = (-index) % hashSize := Int.tmod_eq_emod_of_nonneg (by omega)
    have h3 : (hashSize : ℤ) = 1021 := rfl
    rw [h1, h2, h3] at h0
    rw [h3] at hd
    omega
  unfold hashSet hashGet hashSearch Arr.rdI
  simp [hneg]

/-- two colliding indices and an overwritten one -/
example : Ok (hashRun hashCreate [.set 5 1, .set 1026 2, .set 5 3]) fun h =>
    hashGet h 5 = some 3 ∧ hashGet h 1026 = some 2 ∧ hashGet h 2047 = some 0 := by
  have hn : HashOps.NonNeg [.set 5 1, .set 1026 2, .set 5 3] := by
    intro i v h
    simp at h
    omega
  have a := hash_map _ hn 5 (by decide)
  have b := hash_map _ hn 1026 (by decide)
  have c := hash_map _ hn 2047 (by decide)
  refine ((a.conj b).conj c).mono ?_
  rintro h ⟨⟨⟨a, _⟩, ⟨b, _⟩⟩, ⟨c, _⟩⟩
  exact ⟨a, b, c⟩

end Lis
