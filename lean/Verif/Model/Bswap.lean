import Verif.Base.C
import Mathlib.Data.Nat.Notation

/-! # Model of the byte swaps of src/system/lis_sort.c -/

namespace Lis
variable {β : Type}

/-- One pass over `n` elements of `w` bytes each: `t = *p` copies the element (all its `w` bytes are read), then
the first `m` bytes are stored reversed (the C text is this inner loop unrolled).
src/system/lis_sort.c:281-373 -/
def bswap (w m n : ℕ) (buf : Arr β) : Option (Arr β) :=
  loop 0 n buf fun i (buf : Arr β) => do
    let t ← loop 0 w (.malloc w fun k => buf.get (w * i + k)) fun k (t : Arr β) => do
      let v ← buf.rd (w * i + k)
      t.wr k v
    loop 0 m buf fun k (buf : Arr β) => do
      let v ← t.rd (m - 1 - k)
      buf.wr (w * i + k) v

/-- `lis_bswap_int` with a 32-bit LIS_INT. src/system/lis_sort.c:281-302 -/
def bswapInt32 (n : ℕ) (buf : Arr β) : Option (Arr β) := bswap 4 4 n buf
/-- `lis_bswap_int` in the `_LONG__LONG` build, where LIS_INT has 8 bytes: the same text, 4 bytes per element are
exchanged. src/system/lis_sort.c:281-302 -/
def bswapInt64 (n : ℕ) (buf : Arr β) : Option (Arr β) := bswap 8 4 n buf
/-- `lis_bswap_double`, `lis_bswap_size_t`, `lis_bswap_scalar` (real). src/system/lis_sort.c:304-373 -/
def bswapDouble (n : ℕ) (buf : Arr β) : Option (Arr β) := bswap 8 8 n buf
/-- `lis_bswap_scalar` in the complex build: elements of 16 bytes, 8 of them exchanged.
src/system/lis_sort.c:329-351 -/
def bswapComplex (n : ℕ) (buf : Arr β) : Option (Arr β) := bswap 16 8 n buf

end Lis
