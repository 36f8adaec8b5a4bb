import Verif.Base.C
import Verif.Base.Sum

/-! # Model of the row distribution: `LIS_GET_ISIE` and `lis_ranges_create` -/

namespace Lis

/-- `LIS_GET_ISIE(id,nprocs,n,is,ie)`: the pair `(is,ie)`. include/lis.h:1066-1077 -/
def getIsIe (id nprocs n : ℕ) : ℕ × ℕ :=
  if id < n % nprocs then
    let ie := n / nprocs + 1
    let is := ie * id
    (is, ie + is)
  else
    let ie := n / nprocs
    let is := ie * id + n % nprocs
    (is, ie + is)

/-- what `lis_ranges_create` stores for one process -/
structure RangesOut where
  localN : ℕ
  globalN : ℕ
  is : ℕ
  ie : ℕ
  /-- `*ranges` (`NULL` in the serial build) -/
  ranges : Option (Arr ℕ)

/-- `lis_ranges_create`, serial build. src/system/lis_init.c:386-455 (`#else` branches) -/
def rangesCreateSerial (localN globalN : ℕ) : RangesOut :=
  if localN = 0 then ⟨globalN, globalN, 0, globalN, none⟩ else ⟨localN, localN, 0, localN, none⟩

/-- `lis_ranges_create`, MPI build, on rank `me` of `nprocs`; `localN r`, `globalN r` are the arguments given on
rank `r`.  `MPI_Allreduce(…,MPI_SUM)` delivers the sum of the ranks' contributions, `MPI_Allgather` the
contributions in rank order.  src/system/lis_init.c:386-455 -/
def rangesCreateMpi (junk : ℕ → ℕ) (nprocs me : ℕ) (localN globalN : ℕ → ℕ) : Option RangesOut := do
  let t : Arr ℕ := .malloc (nprocs + 1) junk
  if (∑ r ∈ Finset.range nprocs, localN r) = 0 then do
    let (is, ie) := getIsIe me nprocs (globalN me)
    -- MPI_Allgather(ie,1,..,&tranges[1],..): every rank's own `ie`
    let t ← loop 0 nprocs t fun r (t : Arr ℕ) => t.wr (r + 1) (getIsIe r nprocs (globalN r)).2
    let t ← t.wr 0 0
    pure ⟨ie - is, globalN me, is, ie, some t⟩
  else do
    let t ← loop 0 nprocs t fun r (t : Arr ℕ) => t.wr (r + 1) (localN r)
    let t ← t.wr 0 0
    let t ← loop 0 nprocs t fun i (t : Arr ℕ) => do
      let a ← t.rd (i + 1)
      let b ← t.rd i
      t.wr (i + 1) (a + b)
    let g ← t.rd nprocs
    let is ← t.rd me
    let ie ← t.rd (me + 1)
    pure ⟨localN me, g, is, ie, some t⟩

end Lis
