import Verif.Base.Lists2
import Verif.Spec.MMIO
import Mathlib.Tactic.Ring

namespace Lis
open Finset
variable {K R : Type}

/-! ### reading loops -/

/-- the first `k` lines, parsed -/
def parseN {α : Type} (scan : Line K → Option α) : ℕ → List (Line K) → Option (List α × List (Line K))
  | 0, file => some ([], file)
  | _ + 1, [] => none
  | k + 1, l :: rest => match scan l with
    | none => none
    | some a => (parseN scan k rest).map fun p => (a :: p.1, p.2)

theorem Ok_readLoop_some {α σ : Type} {scan : Line K → Option α} {f : α → σ → Option σ}
    (I : List α → σ → Prop) {es : List α} {rest : List (Line K)} :
    ∀ (k : ℕ) (data : List (Line K)) (pre es' : List α) (s : σ),
    parseN scan k data = some (es', rest) → pre ++ es' = es → I pre s →
    (∀ pre a s, pre ++ [a] <+: es → I pre s → Ok (f a s) (I (pre ++ [a]))) →
    Ok (readLoop scan f k data s) fun r => ∃ s', r = .ok (s', rest) ∧ I es s' := by
  intro k
  induction k with
  | zero =>
    intro data pre es' s hp he hI _
    simp only [parseN, Option.some.injEq, Prod.mk.injEq] at hp
    obtain ⟨rfl, rfl⟩ := hp
    simp only [List.append_nil] at he
    subst he
    simp only [readLoop, Ok_some]
    exact ⟨s, rfl, hI⟩
  | succ k ih =>
    intro data pre es' s hp he hI hst
    cases data with
    | nil => simp [parseN] at hp
    | cons l data =>
      simp only [parseN] at hp
      simp only [readLoop]
      cases hl : scan l with
      | none => simp [hl] at hp
      | some a =>
        simp only [hl] at hp ⊢
        cases hq : parseN scan k data with
        | none => simp [hq] at hp
        | some q =>
          simp only [hq, Option.map_some, Option.some.injEq, Prod.mk.injEq] at hp
          obtain ⟨rfl, hr⟩ := hp
          have hpre : pre ++ [a] <+: es := ⟨q.1, by rw [← he]; simp⟩
          rw [Ok_obind]
          refine (hst pre a s hpre hI).mono fun s' hs' => ?_
          exact ih data (pre ++ [a]) q.1 s' (by rw [hq, ← hr]) (by rw [← he]; simp) hs' hst

theorem Ok_readLoop_none {α σ : Type} {scan : Line K → Option α} {f : α → σ → Option σ}
    (I : σ → Prop) (hst : ∀ a s, I s → Ok (f a s) I) :
    ∀ (k : ℕ) (data : List (Line K)) (s : σ), parseN scan k data = none → I s →
    Ok (readLoop scan f k data s) fun r => r = .error .fileIo := by
  intro k
  induction k with
  | zero => intro data s hp; simp [parseN] at hp
  | succ k ih =>
    intro data s hp hI
    cases data with
    | nil => simp [readLoop]
    | cons l data =>
      simp only [parseN] at hp
      simp only [readLoop]
      cases hl : scan l with
      | none => simp
      | some a =>
        simp only [hl, Option.map_eq_none_iff] at hp
        simp only [Ok_obind]
        exact (hst a s hI).mono fun s' hs' => ih data s' hp hs'

theorem parseN_append {α : Type} {scan : Line K → Option α} :
    ∀ (data rest : List (Line K)) (es : List α), List.Forall₂ (fun l a => scan l = some a) data es →
    parseN scan es.length (data ++ rest) = some (es, rest) := by
  intro data rest es h
  induction h with
  | nil => rfl
  | cons h1 h2 ih => simp only [List.cons_append, List.length_cons, parseN, h1, ih, Option.map_some]

theorem parseN_length {α : Type} {scan : Line K → Option α} :
    ∀ (k : ℕ) (data rest : List (Line K)) (es : List α), parseN scan k data = some (es, rest) →
    es.length = k := by
  intro k
  induction k with
  | zero => intro data rest es h; simp only [parseN, Option.some.injEq, Prod.mk.injEq] at h; simp [← h.1]
  | succ k ih =>
    intro data rest es h
    cases data with
    | nil => simp [parseN] at h
    | cons l data =>
      simp only [parseN] at h
      cases hl : scan l with
      | none => simp [hl] at h
      | some a =>
        simp only [hl] at h
        cases hq : parseN scan k data with
        | none => simp [hq] at h
        | some q =>
          simp only [hq, Option.map_some, Option.some.injEq, Prod.mk.injEq] at h
          obtain ⟨rfl, _⟩ := h
          simp [ih data q.2 q.1 hq]

/-! ### what the two passes put where -/

/-- a parsed entry line -/
abbrev Rec (K : Type) := ℤ × ℤ × K × Option K

/-- (local row, column, value) stored for the mirror position -/
def emMir (io : NumIO K R) (st : MMStruct) (is ie : ℕ) (e : Rec K) : List (ℕ × ℤ × R) :=
  if (st.mirrors && e.1 != e.2.1) = true ∧ (is : ℤ) < e.2.1 ∧ e.2.1 ≤ ie then
    [((e.2.1 - is - 1).toNat, e.1 - 1, mirVal io e.2.2.1 e.2.2.2)] else []

/-- (local row, column, value) stored for the entry itself -/
def emDir (io : NumIO K R) (st : MMStruct) (is ie : ℕ) (e : Rec K) : List (ℕ × ℤ × R) :=
  if (is : ℤ) < e.1 ∧ e.1 ≤ ie then
    [((e.1 - is - 1).toNat, e.2.1 - 1, dirVal io st e.2.2.1 e.2.2.2)] else []

def emAll (io : NumIO K R) (st : MMStruct) (is ie : ℕ) (es : List (Rec K)) : List (ℕ × ℤ × R) :=
  es.flatMap fun e => emMir io st is ie e ++ emDir io st is ie e

theorem emAll_snoc (io : NumIO K R) (st : MMStruct) (is ie : ℕ) (es : List (Rec K)) (e : Rec K) :
    emAll io st is ie (es ++ [e]) =
      emAll io st is ie es ++ (emMir io st is ie e ++ emDir io st is ie e) := by
  simp [emAll]

theorem emAll_prefix (io : NumIO K R) (st : MMStruct) (is ie : ℕ) {es es' : List (Rec K)}
    (h : es <+: es') : emAll io st is ie es <+: emAll io st is ie es' := by
  obtain ⟨t, rfl⟩ := h
  exact ⟨emAll io st is ie t, by simp [emAll]⟩

theorem emAll_lt {io : NumIO K R} {st : MMStruct} {is ie : ℕ} {es : List (Rec K)} :
    ∀ x ∈ emAll io st is ie es, x.1 < ie - is := by
  intro x hx
  simp only [emAll, List.mem_flatMap, List.mem_append, emMir, emDir] at hx
  obtain ⟨e, _, he⟩ := hx
  rcases he with he | he
  · split at he
    · next h => simp only [List.mem_singleton] at he; subst he; simp only; omega
    · simp at he
  · split at he
    · next h => simp only [List.mem_singleton] at he; subst he; simp only; omega
    · simp at he

/-- counters after the counting pass over `L` -/
structure MMCnt (io : NumIO K R) (st : MMStruct) (is ie : ℕ) (es : List (Rec K)) (s : Arr ℕ × Arr ℕ) :
    Prop where
  psz : s.1.size = ie - is + 1
  wsz : s.2.size = ie - is + 1
  cnt : ∀ k, k < ie - is → s.1.get (k + 1) + s.2.get k = (byKey k (emAll io st is ie es)).length
  wz : st.mirrors = false → ∀ k, k < ie - is → s.2.get k = 0

theorem byKey_one {α : Type} (c k : ℕ) (x : α) :
    (byKey c [(k, x)]).length = if c = k then 1 else 0 := by
  rw [byKey_single]; simp only [eq_comm]; split <;> simp_all

theorem Ok_mmCountStep (io : NumIO K R) (st : MMStruct) (is ie : ℕ) (es : List (Rec K)) (e : Rec K)
    (s : Arr ℕ × Arr ℕ) (h : MMCnt io st is ie es s) :
    Ok (mmCountStep st is ie e s) (MMCnt io st is ie (es ++ [e])) := by
  obtain ⟨h1, h2, h3, h4⟩ := h
  unfold mmCountStep
  rw [Ok_obind]
  have hmir : Ok (if (st.mirrors && e.1 != e.2.1) = true then
      if (is : ℤ) < e.2.1 ∧ e.2.1 ≤ ie then do
        let w ← s.2.rdI (e.2.1 - is - 1)
        s.2.wrI (e.2.1 - is - 1) (w + 1)
      else some s.2
    else some s.2) fun w => w.size = ie - is + 1 ∧
      (∀ k, k < ie - is → w.get k = s.2.get k + (byKey k (emMir io st is ie e)).length) ∧
      (st.mirrors = false → ∀ k, k < ie - is → w.get k = 0) := by
    by_cases hm : (st.mirrors && e.1 != e.2.1) = true
    · rw [if_pos hm]
      by_cases hr : (is : ℤ) < e.2.1 ∧ e.2.1 ≤ ie
      · rw [if_pos hr]
        simp only [Ok_bind, Ok_rdI, Ok_wrI]
        refine ⟨by omega, by omega, by omega, by omega, by simpa, fun k hk => ?_, fun hz => ?_⟩
        · rw [emMir, if_pos ⟨hm, hr⟩, byKey_one, Arr.set_get]
          split
          · next hh => rw [hh]
          · rfl
        · rw [hz] at hm; simp at hm
      · rw [if_neg hr, Ok_some]
        refine ⟨h2, fun k hk => ?_, h4⟩
        rw [emMir, if_neg (fun hh => hr hh.2)]; rfl
    · rw [if_neg hm, Ok_some]
      refine ⟨h2, fun k hk => ?_, h4⟩
      rw [emMir, if_neg (fun hh => hm hh.1)]; rfl
  refine hmir.mono ?_
  rintro w ⟨w1, w2, w3⟩
  have hcnt : ∀ k, k < ie - is → (byKey k (emAll io st is ie (es ++ [e]))).length =
      s.1.get (k + 1) + w.get k + (byKey k (emDir io st is ie e)).length := by
    intro k hk
    rw [emAll_snoc, byKey_append, byKey_append, List.length_append, List.length_append, ← h3 k hk, w2 k hk]
    omega
  by_cases hr : (is : ℤ) < e.1 ∧ e.1 ≤ ie
  · rw [if_pos hr]
    simp only [Ok_bind, Ok_rdI, Ok_wrI, Ok_pure]
    refine ⟨by omega, by omega, by omega, by omega, by simpa, w1, fun k hk => ?_, w3⟩
    rw [hcnt k hk, emDir, if_pos hr, byKey_one]
    simp only [Arr.set_get]
    by_cases hk' : k = (e.1 - is - 1).toNat
    · rw [if_pos (by omega), if_pos hk', show (e.1 - is).toNat = k + 1 by omega]; omega
    · rw [if_neg (by omega), if_neg hk']; omega
  · rw [if_neg hr, Ok_pure]
    refine ⟨h1, w1, fun k hk => ?_, w3⟩
    rw [hcnt k hk, emDir, if_neg hr]; rfl

/-- state of the storing pass after `es` -/
structure MMPut (io : NumIO K R) (st : MMStruct) (is ie : ℕ) (ptr : Arr ℕ) (L : List (ℕ × ℤ × R))
    (s : Arr ℕ × Arr ℤ × Arr R) : Prop where
  wsz : s.1.size = ie - is + 1
  isz : s.2.1.size = ptr.get (ie - is)
  vsz : s.2.2.size = ptr.get (ie - is)
  scat : Scat (ie - is) ptr.get L (fun k => ptr.get k + s.1.get k) fun q => (s.2.1.get q, s.2.2.get q)

theorem Ok_put {io : NumIO K R} {st : MMStruct} {is ie : ℕ} {ptr : Arr ℕ} {full L : List (ℕ × ℤ × R)}
    (hsz : ptr.size = ie - is + 1) (hs : Segs (ie - is) ptr.get full) {s : Arr ℕ × Arr ℤ × Arr R}
    (h : MMPut io st is ie ptr L s) {a : ℤ} (ha : (is : ℤ) ≤ a ∧ a < ie) {c : ℤ} {v : R}
    (hpre : L ++ [((a - is).toNat, c, v)] <+: full) :
    Ok (do
      let p ← ptr.rdI (a - is)
      let w ← s.1.rdI (a - is)
      let value ← s.2.2.wr (p + w) v
      let index ← s.2.1.wr (p + w) c
      let work ← s.1.wrI (a - is) (w + 1)
      pure (work, index, value)) (MMPut io st is ie ptr (L ++ [((a - is).toNat, c, v)])) := by
  obtain ⟨h1, h2, h3, h4⟩ := h
  have hk : (a - is).toNat < ie - is := by omega
  have hlt := h4.lt_end hs hpre hk
  simp only at hlt
  simp only [Ok_bind, Ok_rdI, Ok_wrI, Ok_wr, Ok_pure]
  refine ⟨by omega, by omega, by omega, by omega, by omega, by omega, by omega, by omega, by simpa, by simpa, by simpa, ?_⟩
  refine h4.step hs hpre hk (fun k => ?_) fun q => ?_
  · simp only [Arr.set_get]; split
    · next hh => subst hh; omega
    · rfl
  · simp only [Arr.set_get]; split <;> rfl

theorem Ok_mmStoreStep {io : NumIO K R} {st : MMStruct} {is ie : ℕ} {ptr : Arr ℕ} {full : List (Rec K)}
    (hsz : ptr.size = ie - is + 1) (hs : Segs (ie - is) ptr.get (emAll io st is ie full))
    {es : List (Rec K)} {e : Rec K} (hpre : es ++ [e] <+: full) {s : Arr ℕ × Arr ℤ × Arr R}
    (h : MMPut io st is ie ptr (emAll io st is ie es) s) :
    Ok (mmStoreStep io st is ie ptr e s) (MMPut io st is ie ptr (emAll io st is ie (es ++ [e]))) := by
  have hp := emAll_prefix io st is ie hpre
  rw [emAll_snoc] at hp ⊢
  rw [← List.append_assoc] at hp ⊢
  unfold mmStoreStep
  rw [Ok_obind]
  have hmir : Ok (if (st.mirrors && e.1 - 1 != e.2.1 - 1) = true then
      if (is : ℤ) ≤ e.2.1 - 1 ∧ e.2.1 - 1 < ie then do
        let p ← ptr.rdI (e.2.1 - 1 - is)
        let w ← s.1.rdI (e.2.1 - 1 - is)
        let value ← s.2.2.wr (p + w) (mirVal io e.2.2.1 e.2.2.2)
        let index ← s.2.1.wr (p + w) (e.1 - 1)
        let work ← s.1.wrI (e.2.1 - 1 - is) (w + 1)
        pure (work, index, value)
      else some s
    else some s) (MMPut io st is ie ptr (emAll io st is ie es ++ emMir io st is ie e)) := by
    have hne : (st.mirrors && e.1 - 1 != e.2.1 - 1) = (st.mirrors && e.1 != e.2.1) := by
      congr 1
      rw [Bool.eq_iff_iff, bne_iff_ne, bne_iff_ne]; omega
    rw [hne]
    by_cases hm : (st.mirrors && e.1 != e.2.1) = true
    · rw [if_pos hm]
      by_cases hr : (is : ℤ) ≤ e.2.1 - 1 ∧ e.2.1 - 1 < ie
      · rw [if_pos hr]
        have hee : emMir io st is ie e = [((e.2.1 - 1 - is).toNat, e.1 - 1, mirVal io e.2.2.1 e.2.2.2)] := by
          rw [emMir, if_pos ⟨hm, by omega, by omega⟩]; congr 2; omega
        rw [hee] at hp ⊢
        exact Ok_put hsz hs h hr ((List.prefix_append _ _).trans hp)
      · rw [if_neg hr, Ok_some, emMir, if_neg (fun hh => hr ⟨by omega, by omega⟩), List.append_nil]
        exact h
    · rw [if_neg hm, Ok_some, emMir, if_neg (fun hh => hm hh.1), List.append_nil]
      exact h
  refine hmir.mono fun s' h' => ?_
  by_cases hr : (is : ℤ) ≤ e.1 - 1 ∧ e.1 - 1 < ie
  · rw [if_pos hr]
    have hee : emDir io st is ie e = [((e.1 - 1 - is).toNat, e.2.1 - 1, dirVal io st e.2.2.1 e.2.2.2)] := by
      rw [emDir, if_pos ⟨by omega, by omega⟩]; congr 2; omega
    rw [hee] at hp ⊢
    exact Ok_put hsz hs h' hr hp
  · rw [if_neg hr, Ok_some, emDir, if_neg (fun hh => hr ⟨by omega, by omega⟩), List.append_nil]
    exact h'

/-- the rows built from the parsed entries `es` -/
structure MMBuilt (io : NumIO K R) (st : MMStruct) (is ie : ℕ) (es : List (Rec K)) (A : MMCsr R) :
    Prop where
  n : A.n = ie - is
  psz : A.ptr.size = ie - is + 1
  p0 : A.ptr.get 0 = 0
  nnz : A.nnz = A.ptr.get (ie - is)
  isz : A.index.size = A.nnz
  vsz : A.value.size = A.nnz
  segs : Segs (ie - is) A.ptr.get (emAll io st is ie es)
  scat : ∃ iw, Scat (ie - is) A.ptr.get (emAll io st is ie es) iw fun q => (A.index.get q, A.value.get q)

theorem Ok_mmCsrRows [Zero R] (io : NumIO K R) (t : MMType) (st : MMStruct) (is ie : ℕ) (nnz : ℤ)
    (data : List (Line K)) (jI : ℕ → ℕ) (jZ : ℕ → ℤ) (jR : ℕ → R) :
    Ok (mmCsrRows io t st is ie nnz data jI jZ jR) fun r =>
      match parseN (scanMat t) nnz.toNat data with
      | none => r = .error .fileIo
      | some (es, rest) => ∃ A, r = .ok (A, rest) ∧ MMBuilt io st is ie es A := by
  unfold mmCsrRows
  rw [Ok_obind]
  refine Ok_loop_le (fun i (s : Arr ℕ × Arr ℕ) => s.1.size = ie - is + 1 ∧ s.2.size = ie - is + 1 ∧
    ∀ k, k < i → s.1.get k = 0 ∧ s.2.get k = 0) (Nat.zero_le _) ⟨rfl, rfl, by simp⟩ ?_ ?_
  · rintro i ⟨p, w⟩ _ hi ⟨h1, h2, h3⟩
    simp only at h1 h2 h3
    simp only [Ok_bind, Ok_wr, Ok_pure]
    refine ⟨by omega, by omega, by simpa, by simpa, fun k hk => ?_⟩
    simp only [Arr.set_get]
    by_cases hki : k = i
    · simp [hki]
    · rw [if_neg hki, if_neg hki]; exact h3 k (by omega)
  rintro s ⟨h1, h2, h3⟩
  have hc0 : MMCnt io st is ie [] s := ⟨h1, h2, fun k hk => by
    rw [(h3 (k + 1) (by omega)).1, (h3 k (by omega)).2]; rfl, fun _ k hk => (h3 k (by omega)).2⟩
  rw [Ok_obind]
  cases hparse : parseN (scanMat t) nnz.toNat data with
  | none =>
    refine (Ok_readLoop_none (fun s => s.1.size = ie - is + 1 ∧ s.2.size = ie - is + 1) ?_ _ _ _ hparse
      ⟨h1, h2⟩).mono ?_
    · rintro e ⟨p, w⟩ ⟨h1, h2⟩
      simp only at h1 h2
      unfold mmCountStep
      rw [Ok_obind]
      have : Ok (if (st.mirrors && e.1 != e.2.1) = true then
          if (is : ℤ) < e.2.1 ∧ e.2.1 ≤ ie then do
            let x ← w.rdI (e.2.1 - is - 1)
            w.wrI (e.2.1 - is - 1) (x + 1)
          else some w
        else some w) fun w' => w'.size = ie - is + 1 := by
        simp only [Ok_ite, Ok_bind, Ok_rdI, Ok_wrI, Ok_some]
        exact ⟨fun _ => ⟨fun hr => ⟨by omega, by omega, by omega, by omega, by simpa⟩, fun _ => h2⟩, fun _ => h2⟩
      refine this.mono fun w' hw' => ?_
      simp only [Ok_ite, Ok_bind, Ok_rdI, Ok_wrI, Ok_pure]
      exact ⟨fun hr => ⟨by omega, by omega, by omega, by omega, by simpa, hw'⟩, fun _ => ⟨h1, hw'⟩⟩
    · rintro r rfl
      simp
  | some q =>
    obtain ⟨es, rest⟩ := q
    refine (Ok_readLoop_some (es := es) (MMCnt io st is ie) _ _ [] es _ hparse (by simp) hc0
      fun pre a s _ hI => Ok_mmCountStep io st is ie pre a s hI).mono ?_
    rintro r ⟨⟨p, w⟩, rfl, ⟨c1, c2, c3, c4⟩⟩
    simp only at c1 c2 c3 c4
    simp only [Ok_obind, Ok_wr]
    refine ⟨by omega, ?_⟩
    refine Ok_loop_le (fun i (s : Arr ℕ × Arr ℕ) => s.1.size = ie - is + 1 ∧ s.2.size = ie - is + 1 ∧
      s.1.get 0 = 0 ∧
      (∀ k, k < i → s.1.get (k + 1) = s.1.get k + (byKey k (emAll io st is ie es)).length ∧ s.2.get k = 0) ∧
      (∀ k, i ≤ k → k < ie - is → s.1.get (k + 1) = p.get (k + 1) ∧ s.2.get k = w.get k)) (Nat.zero_le _)
      ⟨by simpa, c2, by simp, by simp, fun k _ hk => ⟨by simp [Arr.set_get], rfl⟩⟩ ?_ ?_
    · rintro i ⟨p', w'⟩ _ hi ⟨i1, i2, i3, i4, i5⟩
      simp only at i1 i2 i3 i4 i5
      have hlen := c3 i hi
      obtain ⟨i6, i7⟩ := i5 i le_rfl hi
      have hmain : Ok (do
          let w1 ← w'.wr i 0
          pure (p'.set (i + 1) (p'.get i + (byKey i (emAll io st is ie es)).length), w1)) fun s =>
          s.1.size = ie - is + 1 ∧ s.2.size = ie - is + 1 ∧ s.1.get 0 = 0 ∧
          (∀ k, k < i + 1 → s.1.get (k + 1) = s.1.get k + (byKey k (emAll io st is ie es)).length ∧ s.2.get k = 0) ∧
          (∀ k, i + 1 ≤ k → k < ie - is → s.1.get (k + 1) = p.get (k + 1) ∧ s.2.get k = w.get k) := by
        simp only [Ok_bind, Ok_wr, Ok_pure]
        refine ⟨by omega, by simpa, by simpa, ?_, fun k hk => ?_, fun k hk hk' => ?_⟩
        · simp only [Arr.set_get]; rw [if_neg (by omega)]; exact i3
        · simp only [Arr.set_get]
          by_cases hki : k = i
          · subst hki; simp
          · rw [if_neg (by omega), if_neg (by omega), if_neg hki]; exact i4 k (by omega)
        · simp only [Arr.set_get]
          rw [if_neg (by omega), if_neg (by omega)]; exact i5 k (by omega) hk'
      simp only [Ok_bind, Ok_rd]
      refine ⟨by omega, by omega, by omega, ?_⟩
      cases hst : st.mirrors with
      | true =>
        rw [if_pos rfl, Ok_bind, Ok_wr]
        refine ⟨by omega, ?_⟩
        rw [show p'.get (i + 1) + (p'.get i + w'.get i) =
          p'.get i + (byKey i (emAll io st is ie es)).length by omega]
        exact hmain
      | false =>
        rw [if_neg (by decide), Ok_bind, Ok_wr]
        refine ⟨by omega, ?_⟩
        have := c4 hst i hi
        rw [show p'.get (i + 1) + p'.get i =
          p'.get i + (byKey i (emAll io st is ie es)).length by omega]
        exact hmain
    rintro ⟨p', w'⟩ ⟨i1, i2, i3, i4, _⟩
    simp only at i1 i2 i3 i4
    have hsegs : Segs (ie - is) p'.get (emAll io st is ie es) := ⟨fun k hk => (i4 k hk).1⟩
    simp only [Ok_rd]
    refine ⟨by omega, ?_⟩
    refine Ok_loop_le (fun i (t : Arr ℤ × Arr R) => t.1.size = p'.get (ie - is) ∧ t.2.size = p'.get (ie - is))
      (Nat.zero_le _) ⟨rfl, rfl⟩ ?_ ?_
    · rintro i t _ hi ht
      simp only [Ok_obind, Ok_rd]
      have hm1 := hsegs.mono (a := i + 1) (b := ie - is) (by omega) le_rfl
      have hm0 := hsegs.mono (a := i) (b := i + 1) (by omega) (by omega)
      refine ⟨by omega, by omega, ?_⟩
      refine Ok_loop_le (fun i (t : Arr ℤ × Arr R) => t.1.size = p'.get (ie - is) ∧ t.2.size = p'.get (ie - is))
        hm0 ht ?_ fun _ h => h
      rintro j t _ hj ⟨t1, t2⟩
      simp only [Ok_bind, Ok_wr, Ok_pure]
      exact ⟨by omega, by omega, by simpa, by simpa⟩
    rintro ⟨ix, vl⟩ ⟨t1, t2⟩
    simp only at t1 t2
    refine (Ok_readLoop_some (es := es) (fun es s => MMPut io st is ie p' (emAll io st is ie es) s) _ _ [] es _ hparse (by simp)
      ⟨i2, t1, t2, Scat.nil fun c hc => by simp [(i4 c hc).2]⟩
      fun pre a s hpre hI => Ok_mmStoreStep i1 hsegs hpre hI).mono ?_
    rintro r ⟨⟨w1, ix1, vl1⟩, rfl, ⟨s1, s2, s3, s4⟩⟩
    simp only [Ok_some]
    exact ⟨_, rfl, rfl, i1, i3, rfl, s2, s3, hsegs, _, s4⟩

end Lis
