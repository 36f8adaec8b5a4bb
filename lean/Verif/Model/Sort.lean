import Verif.Base.C
import Mathlib.Data.Int.Notation
import Mathlib.Data.Nat.Notation
import Mathlib.Order.Defs.LinearOrder

/-!
# Model of src/system/lis_sort.c

The eight quicksort functions have the same text up to the arrays that are swapped along; `qsort` is that
text with the key read and the swap as parameters, and each C function is an instance.  Indices are
signed (`j` may become `is-1`).  `LIS_INT` keys may be any linear order.
-/

namespace Lis
variable {κ α β γ σ : Type}

/-- `lis_swap(a[x],a[y],t)`. src/system/lis_sort.c:62 -/
def swapA (a : Arr α) (x y : ℤ) : Option (Arr α) := do
  let t ← a.rdI x
  let u ← a.rdI y
  let a ← a.wrI x u
  a.wrI y t

/-- body of the outer `while`: the two scans and the exchange. src/system/lis_sort.c:77-86 -/
def qsortStep (rd : ℤ → σ → Option κ) (swap : ℤ → ℤ → σ → Option σ) (lt : κ → κ → Bool) (v : κ) (st : ℤ × ℤ × σ) :
    Option (ℤ × ℤ × σ) := do
  let i ← whileL (fun i => do let a ← rd i st.2.2; some (lt a v)) (fun i => some (i + 1)) st.1
  let j ← whileL (fun j => do let a ← rd j st.2.2; some (lt v a)) (fun j => some (j - 1)) st.2.1
  if i ≤ j then do
    let s ← swap i j st.2.2
    pure (i + 1, j - 1, s)
  else pure (i, j, st.2.2)

/-- the part of the quicksort before the recursive calls; returns `(i, j)` and the arrays.
src/system/lis_sort.c:72-87 -/
def qsortPart (rd : ℤ → σ → Option κ) (swap : ℤ → ℤ → σ → Option σ) (lt : κ → κ → Bool) (is ie : ℤ) (s : σ) :
    Option (ℤ × ℤ × σ) := do
  let p := (is + ie).tdiv 2
  let v ← rd p s
  let s ← swap p ie s
  whileL (fun st => some (decide (st.1 ≤ st.2.1))) (qsortStep rd swap lt v) (is, ie, s)

/-- the common quicksort. src/system/lis_sort.c:64-90 (and the same text in the other functions) -/
def qsort (rd : ℤ → σ → Option κ) (swap : ℤ → ℤ → σ → Option σ) (lt : κ → κ → Bool) (is ie : ℤ) (s : σ) : Option σ :=
  if ie ≤ is then some s
  else do
    let st ← qsortPart rd swap lt is ie s
    let s ← qsort rd swap lt is st.2.1 st.2.2
    qsort rd swap lt st.1 ie s
partial_fixpoint

/-- `lis_sort_i`. src/system/lis_sort.c:64-90 -/
def lisSortI [LinearOrder κ] (is ie : ℤ) (i1 : Arr κ) : Option (Arr κ) :=
  qsort (fun k s => s.rdI k) (fun x y s => swapA s x y) (fun a b => decide (a < b)) is ie i1

/-- two arrays swapped together: `lis_sort_id`, `lis_sort_ii`. src/system/lis_sort.c:92-120, :157-184 -/
def lisSortId [LinearOrder κ] (is ie : ℤ) (s : Arr κ × Arr α) : Option (Arr κ × Arr α) :=
  qsort (fun k s => s.1.rdI k)
    (fun x y s => do
      let a ← swapA s.1 x y
      let b ← swapA s.2 x y
      pure (a, b))
    (fun a b => decide (a < b)) is ie s

/-- `lis_sort_ii`: the same with a companion of integers. src/system/lis_sort.c:157-184 -/
def lisSortIi [LinearOrder κ] (is ie : ℤ) (s : Arr κ × Arr α) : Option (Arr κ × Arr α) := lisSortId is ie s

/-- `lis_sort_iid`. src/system/lis_sort.c:186-216 -/
def lisSortIid [LinearOrder κ] (is ie : ℤ) (s : Arr κ × Arr α × Arr β) : Option (Arr κ × Arr α × Arr β) :=
  qsort (fun k s => s.1.rdI k)
    (fun x y s => do
      let a ← swapA s.1 x y
      let b ← swapA s.2.1 x y
      let c ← swapA s.2.2 x y
      pure (a, b, c))
    (fun a b => decide (a < b)) is ie s

/-- `lis_sort_iiid`. src/system/lis_sort.c:218-250 -/
def lisSortIiid [LinearOrder κ] (is ie : ℤ) (s : Arr κ × Arr α × Arr β × Arr γ) :
    Option (Arr κ × Arr α × Arr β × Arr γ) :=
  qsort (fun k s => s.1.rdI k)
    (fun x y s => do
      let a ← swapA s.1 x y
      let b ← swapA s.2.1 x y
      let c ← swapA s.2.2.1 x y
      let d ← swapA s.2.2.2 x y
      pure (a, b, c, d))
    (fun a b => decide (a < b)) is ie s

/-- `lis_sortr_ii`: descending. src/system/lis_sort.c:252-279 -/
def lisSortrIi [LinearOrder κ] (is ie : ℤ) (s : Arr κ × Arr α) : Option (Arr κ × Arr α) :=
  qsort (fun k s => s.1.rdI k)
    (fun x y s => do
      let a ← swapA s.1 x y
      let b ← swapA s.2 x y
      pure (a, b))
    (fun a b => decide (b < a)) is ie s

/-- `lis_sort_d` (real part as key in the complex build: `re`). src/system/lis_sort.c:471-509 -/
def lisSortD [LinearOrder κ] (re : α → κ) (is ie : ℤ) (d1 : Arr α) : Option (Arr α) :=
  qsort (fun k s => s.rdI k) (fun x y s => swapA s x y) (fun a b => decide (re a < re b)) is ie d1

/-- `lis_sort_di`, `lis_sort_dd` (companions exchanged first resp. second).
src/system/lis_sort.c:430-469, :511-551 -/
def lisSortDi [LinearOrder κ] (re : α → κ) (is ie : ℤ) (s : Arr α × Arr β) : Option (Arr α × Arr β) :=
  qsort (fun k s => s.1.rdI k)
    (fun x y s => do
      let b ← swapA s.2 x y
      let a ← swapA s.1 x y
      pure (a, b))
    (fun a b => decide (re a < re b)) is ie s

/-- `memcpy(&d[q], &s[p], bs*sizeof)`, element by element -/
def memcpyA (d : Arr α) (q : ℤ) (s : Arr α) (p : ℤ) (bs : ℕ) : Option (Arr α) :=
  loop 0 bs d fun t d => do
    let v ← s.rdI (p + t)
    d.wrI (q + t) v

/-- the three `memcpy`s through the local `LIS_SCALAR s1[9]` (`buf`).
src/system/lis_sort.c:127,134-136,147-149 -/
def swapBlk (bs : ℕ) (buf : ℕ → α) (d : Arr α) (x y : ℤ) : Option (Arr α) := do
  let s1 ← memcpyA (.malloc 9 buf) 0 d (bs * x) bs
  let d ← memcpyA d (bs * x) d (bs * y) bs
  memcpyA d (bs * y) s1 0 bs

/-- `lis_sort_id_block`. src/system/lis_sort.c:122-155 -/
def lisSortIdBlock [LinearOrder κ] (bs : ℕ) (buf : ℕ → α) (is ie : ℤ) (s : Arr κ × Arr α) : Option (Arr κ × Arr α) :=
  qsort (fun k s => s.1.rdI k)
    (fun x y s => do
      let a ← swapA s.1 x y
      let b ← swapBlk bs buf s.2 x y
      pure (a, b))
    (fun a b => decide (a < b)) is ie s

/-- `lis_sort_jad`: counting sort by decreasing row length; `i1` lengths, `i2` output permutation.
(`maxnzr - i1[i]` is a signed subtraction: a length above `maxnzr` gives a negative index.)
src/system/lis_sort.c:375-428 -/
def lisSortJad (junk : ℕ → ℕ → ℕ) (is ie maxnzr : ℕ) (i1 : Arr ℕ) (i2 : Arr ℕ) : Option (Arr ℕ × Arr ℕ) := do
  let iw ← loop 0 (maxnzr + 2) (.malloc (maxnzr + 2) (junk 0)) fun i (w : Arr ℕ) => w.wr i 0
  let iw ← loop is ie iw fun i (w : Arr ℕ) => do
    let l ← i1.rd i
    let o ← w.rdI ((maxnzr : ℤ) - l + 1)
    w.wrI ((maxnzr : ℤ) - l + 1) (o + 1)
  let iw ← iw.wr 0 is
  let iw ← loop 0 (maxnzr + 1) iw fun i (w : Arr ℕ) => do
    let a ← w.rd (i + 1)
    let b ← w.rd i
    w.wr (i + 1) (a + b)
  let iw2 ← loop 0 (maxnzr + 2) (.malloc (maxnzr + 2) (junk 1)) fun i (w : Arr ℕ) => do
    let a ← iw.rd i
    w.wr i a
  let (_, i2) ← loop is ie (iw, i2) fun i (s : Arr ℕ × Arr ℕ) => do
    let l ← i1.rd i
    let p ← s.1.rdI ((maxnzr : ℤ) - l)
    let i2 ← s.2.wr p i
    let w ← s.1.wrI ((maxnzr : ℤ) - l) (p + 1)
    pure (w, i2)
  let i1 ← loop 0 (maxnzr + 1) i1 fun i (i1 : Arr ℕ) => do
    let a ← iw2.rd i
    let b ← iw2.rd (i + 1)
    loop a b i1 fun j (i1 : Arr ℕ) => i1.wr j (maxnzr - i)
  pure (i1, i2)

end Lis
