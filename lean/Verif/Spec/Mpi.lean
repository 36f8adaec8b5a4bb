import Verif.Spec.Formats
import Mathlib.Algebra.BigOperators.Intervals

/-! # What the local numbering of a distributed matrix means -/

namespace Lis

variable {R : Type}

/-- global column of local column `k`: own columns first, then the remote ones in the order of `l2g` -/
def globalCol (is n : ℕ) (l2g : ℕ → ℕ) (k : ℕ) : ℕ := if k < n then is + k else l2g (k - n)

/-- `A'` is `A` (rows `is..ie-1`, global columns below `gn`) with local column numbers: the own columns keep their
order, the remote columns that occur follow, each once, in increasing order. -/
structure IsLocalCsr (gn is ie : ℕ) (A A' : Csr R) (l2g : Arr ℕ) : Prop where
  n : A'.n = A.n
  nnz : A'.nnz = A.nnz
  ptr : A'.ptr = A.ptr
  value : A'.value = A.value
  isz : A'.index.size = A.index.size
  np : A'.np = A.n + l2g.size
  incr : ∀ p q, p < q → q < l2g.size → l2g.get p < l2g.get q
  ext : ∀ p, p < l2g.size → l2g.get p < gn ∧ (l2g.get p < is ∨ ie ≤ l2g.get p)
  used : ∀ p, p < l2g.size → ∃ k, k < A.nnz ∧ A.index.get k = l2g.get p
  idx : ∀ k, k < A.nnz → A'.index.get k < A'.np ∧ globalCol is A.n l2g.get (A'.index.get k) = A.index.get k

/-- a partition of the global rows `0..gn-1` into `P` consecutive ranges (possibly empty) -/
structure IsPartition (P gn : ℕ) (rg : ℕ → ℕ) : Prop where
  zero : rg 0 = 0
  mono : ∀ r, r < P → rg r ≤ rg (r + 1)
  last : rg P = gn

/-- the ranks' blocks `A r` (rows `rg r .. rg (r+1)-1`, global column numbers) together are the `gn × gn` matrix `G` -/
structure DistMatrix [AddCommMonoid R] (P gn : ℕ) (rg : ℕ → ℕ) (A : ℕ → Csr R) (G : ℕ → ℕ → R) : Prop where
  part : IsPartition P gn rg
  wf : ∀ r, r < P → (A r).WF
  np : ∀ r, r < P → (A r).np = gn
  n : ∀ r, r < P → rg r + (A r).n = rg (r + 1)
  entry : ∀ r, r < P → ∀ i, i < (A r).n → ∀ j, j < gn → (A r).entry i j = G (rg r + i) j

/-- the ranks' arrays hold the elements of the global vector `xg` (in their first elements) -/
def DistVec (P : ℕ) (rg : ℕ → ℕ) (x : ℕ → Arr R) (xg : ℕ → R) : Prop :=
  ∀ r, r < P → rg (r + 1) - rg r ≤ (x r).size ∧ ∀ i, rg r + i < rg (r + 1) → (x r).get i = xg (rg r + i)

/-- every rank has its own copy of the row distribution -/
def KnowsRanges (P : ℕ) (rg : ℕ → ℕ) (ranges : ℕ → Arr ℕ) : Prop :=
  ∀ r, r < P → P + 1 ≤ (ranges r).size ∧ ∀ k, k ≤ P → (ranges r).get k = rg k

/-- some stored element of the block of rank `r` belongs to a column of another rank -/
def NeedsRemote (rg : ℕ → ℕ) (A : ℕ → Csr R) (r : ℕ) : Prop :=
  ∃ k, k < (A r).nnz ∧ ((A r).index.get k < rg r ∨ rg (r + 1) ≤ (A r).index.get k)

/-- the elements `is, is+1, …` of a global vector, as a local vector of length `n` -/
def localPart [Zero R] {gn : ℕ} (is n : ℕ) (v : Fin gn → R) : Fin n → R := fun i => if h : is + i < gn then v ⟨is + i, h⟩ else 0

end Lis
