import Verif.Lemmas.Assembly2
import Verif.Base.Lists2

/-! Conversion of the assembly buffers to CSR and CSC. -/

namespace Lis
open Finset
variable {R : Type}

/-- row `i` of the buffers as (column, value) pairs -/
def Bufs.rowList (B : Bufs R) (i : ℕ) : List (ℕ × R) :=
  (List.range (B.row.get i)).map fun k => ((B.idx.get i).get k, (B.val.get i).get k)

@[simp] theorem Bufs.rowList_length (B : Bufs R) (i : ℕ) : (B.rowList i).length = B.row.get i := by
  simp [Bufs.rowList]

theorem Bufs.entry_rowList [AddCommMonoid R] (B : Bufs R) (i j : ℕ) :
    B.entry i j = ((B.rowList i).map fun e => if e.1 = j then e.2 else 0).sum := by
  unfold Bufs.entry Bufs.rowList
  rw [List.map_map, ← map_range_sum]; rfl

theorem Bufs.Inv.rowList_col {n gn : ℕ} {B : Bufs R} (h : B.Inv n gn) {i : ℕ} (hi : i < n)
    {e : ℕ × R} (he : e ∈ B.rowList i) : e.1 < gn := by
  simp only [Bufs.rowList, List.mem_map, List.mem_range] at he
  obtain ⟨k, hk, rfl⟩ := he
  exact h.col i hi k hk

theorem Bufs.Inv.rowList_nodup {n gn : ℕ} {B : Bufs R} (h : B.Inv n gn) {i : ℕ} (hi : i < n) :
    ((B.rowList i).map Prod.fst).Nodup := by
  unfold Bufs.rowList
  rw [List.map_map]
  refine List.Nodup.map_on ?_ List.nodup_range
  intro k hk l hl heq
  simp only [List.mem_range] at hk hl
  exact h.nodup i hi k l hk hl heq

theorem concatRows_len_prefix {α : Type} (L : ℕ → List α) (i : ℕ) :
    ∑ k ∈ range i, (L k).length = (concatRows i L).length := (concatRows_length i L).symm

theorem rco2csr_rows (J : Junk R) (A : AMat R) (hI : A.bufs.Inv A.n A.gn) :
    Ok (rco2csr J A) fun C => C.n = A.n ∧ C.np = A.n ∧ C.Rows A.bufs.rowList := by
  obtain ⟨h1, h2, h3, h4, h5, h6, h7, h8, h9⟩ := hI
  simp only [AMat.bufs] at h1 h2 h3 h4 h5 h6 h7 h8 h9
  have hlen : ∀ k, A.wrow.get k = (A.bufs.rowList k).length := fun k => by
    rw [Bufs.rowList_length]; rfl
  have hmono : ∀ {i}, i < A.n → (concatRows i A.bufs.rowList).length + (A.bufs.rowList i).length ≤
      (concatRows A.n A.bufs.rowList).length := fun {i} hi => by
    rw [← List.length_append, ← concatRows_succ]
    exact (concatRows_prefix (n := i + 1) hi _).length_le
  unfold rco2csr
  rw [Ok_bind]
  refine Ok_loop_sum' (fun i => A.wrow.get i) ?_ ?_
  · intro j t _ hj; simp only [Ok_bind, Ok_rd, Ok_pure]; exact ⟨by omega, trivial⟩
  simp only [Ok_bind, Ok_wr]
  refine ⟨by simp, ?_⟩
  refine Ok_prefix (fun i => A.wrow.get i) ?_ ?_
  · intro i p hi hp
    simp only [Ok_bind, Ok_rd, Ok_wr]
    simp only [Arr.set_size, Arr.malloc_size] at hp
    exact ⟨by omega, by omega, by omega, trivial⟩
  intro p hp hpv
  simp only [Arr.set_size, Arr.malloc_size] at hp
  simp only [Arr.set_get_self, zero_add, hlen, concatRows_len_prefix] at hpv
  simp only [zero_add, sum_Ico_zero, hlen, concatRows_len_prefix]
  refine Ok_loop_le (fun i (s : Arr ℕ × Arr R) => s.1.size = (concatRows A.n A.bufs.rowList).length ∧
      s.2.size = (concatRows A.n A.bufs.rowList).length ∧
      Filled (fun q => (s.1.get q, s.2.get q)) (concatRows i A.bufs.rowList)) (Nat.zero_le _)
    ⟨rfl, rfl, Filled.nil _⟩ ?_ ?_
  · rintro i s _ hi ⟨hs1, hs2, hs3⟩
    simp only [Ok_bind, Ok_rd]
    refine ⟨by omega, by omega, ?_⟩
    rw [hlen, hpv i (by omega)]
    refine Ok_loop_le (fun j (s : Arr ℕ × Arr R) => s.1.size = (concatRows A.n A.bufs.rowList).length ∧
        s.2.size = (concatRows A.n A.bufs.rowList).length ∧
        Filled (fun q => (s.1.get q, s.2.get q))
          (concatRows i A.bufs.rowList ++ (A.bufs.rowList i).take j)) (Nat.zero_le _)
      ⟨hs1, hs2, by simpa using hs3⟩ ?_ ?_
    · rintro j s _ hj ⟨hs1, hs2, hs3⟩
      have hj' : j < A.wrow.get i := by rw [hlen]; exact hj
      have hc := h7 i hi
      have hx := h5 i hi
      have hy := h6 i hi
      have hm := hmono hi
      simp only [Ok_bind, Ok_rd, Ok_wr, Ok_pure]
      refine ⟨by omega, by omega, by omega, by omega, by omega, by omega, hs1, hs2, ?_⟩
      rw [concatRows_take_snoc _ hj]
      refine hs3.snoc fun q => ?_
      simp only [List.length_append, List.length_take, Arr.set_get]
      rw [show min j (A.bufs.rowList i).length = j by omega]
      by_cases hq : q = (concatRows i A.bufs.rowList).length + j
      · simp only [hq, if_true]
        simp [Bufs.rowList, AMat.bufs]
      · simp only [hq, if_false]
    · rintro s ⟨hs1, hs2, hs3⟩
      rw [concatRows_take_full _ _ le_rfl] at hs3
      exact ⟨hs1, hs2, hs3⟩
  · rintro s ⟨hs1, hs2, hs3⟩
    simp only [Ok_pure]
    exact ⟨trivial, trivial, by simp [hp], hpv, rfl, by simp [hs1], by simp [hs2], hs3⟩

theorem byKey_concat_len {α : Type} (c : ℕ) (n : ℕ) (L : ℕ → List (ℕ × α)) :
    (byKey c (concatRows n L)).length = ∑ i ∈ range n, (byKey c (L i)).length := by
  induction n with
  | zero => rfl
  | succ n ih => rw [concatRows_succ, byKey_append, List.length_append, ih, sum_range_succ]

theorem rco2csc_cols (J : Junk R) (A : AMat R) (hI : A.bufs.Inv A.n A.gn) (hg : A.gn = A.n) :
    Ok (rco2csc J A) fun C => C.n = A.n ∧ C.np = A.n ∧ C.Cols (byCol A.n A.bufs.rowList) := by
  have hcol := fun i (hi : i < A.n) e => hI.rowList_col hi (e := e)
  rw [hg] at hcol
  obtain ⟨h1, h2, h3, h4, h5, h6, h7, h8, h9⟩ := hI
  simp only [AMat.bufs] at h1 h2 h3 h4 h5 h6 h7 h8 h9
  set L : ℕ → List (ℕ × ℕ × R) := fun i => (A.bufs.rowList i).map fun e => (e.1, (i, e.2)) with hL
  have hlen : ∀ k, A.wrow.get k = (L k).length := fun k => by simp [hL, AMat.bufs]
  have hget : ∀ i j (hj : j < (L i).length), (L i)[j] =
      ((A.widx.get i).get j, (i, (A.wval.get i).get j)) := fun i j hj => by
    simp [hL, Bufs.rowList, AMat.bufs]
  have hkey : ∀ i, i < A.n → ∀ j (hj : j < (L i).length), (A.widx.get i).get j < A.n := fun i hi j hj => by
    have := h8 i hi j (by rw [hlen]; exact hj); omega
  have hbc : byCol A.n A.bufs.rowList = concatRows A.n L := rfl
  rw [hbc]
  clear_value L
  unfold rco2csc
  simp only [Ok_bind]
  refine Ok_fillConst (by simp) fun iw0 hiw0 hiz => ?_
  refine Ok_rowsLoop (L := L) (fun pre iw => Counted A.n 0 pre iw ∧ iw.size = A.n)
    ⟨⟨by simp [hiw0], fun c hc => by simpa using hiz c hc⟩, by simp [hiw0]⟩ ?_ ?_
  · intro i iw hi hc
    simp only [Ok_bind, Ok_rd]
    refine ⟨by omega, ?_⟩
    rw [hlen]
    refine Ok_rowLoop (L := L) (i := i) (fun pre iw => Counted A.n 0 pre iw ∧ iw.size = A.n) (by simp) hc ?_
      fun s h => h
    rintro j hj iw ⟨hc, hsz⟩
    have hj' : j < A.wrow.get i := by rw [hlen]; exact hj
    have hc7 := h7 i hi
    have hx := h5 i hi
    have he := hkey i hi j hj
    have hst := hc.step (e := (L i)[j]) (by rw [hget]; exact he)
    simp only [hget, Nat.add_zero] at hst
    rw [Nat.zero_add]
    simp only [Ok_bind, Ok_rd, Ok_wr]
    rw [hget]
    exact ⟨by omega, by omega, by omega, by omega, hst.2, by simpa⟩
  rintro iw ⟨hc, hisz⟩
  simp only [Ok_wr]
  refine ⟨by simp, ?_⟩
  refine Ok_ptrLoop (full := concatRows A.n L) (by simp) hc ?_ ?_
  · intro i s hi hs1 hs2
    simp only [Arr.set_size, Arr.malloc_size] at hs1
    simp only [Ok_bind, Ok_rd, Ok_wr, Ok_pure]
    refine ⟨by omega, by omega, by omega, by omega, trivial⟩
  intro p w hp hw hp0 hsegs hwp
  simp only [Arr.set_size, Arr.malloc_size] at hp
  simp only [Ok_rd]
  refine ⟨by omega, ?_⟩
  refine Ok_rowsLoop (L := L) (fun pre (s : Arr ℕ × Arr ℕ × Arr R) => s.1.size = A.n ∧
      s.2.1.size = p.get A.n ∧ s.2.2.size = p.get A.n ∧
      Scat A.n p.get pre s.1.get fun q => (s.2.1.get q, s.2.2.get q))
    ⟨by show w.size = A.n; omega, rfl, rfl, Scat.nil hwp⟩ ?_ ?_
  · intro i s hi hI
    simp only [Ok_bind, Ok_rd]
    refine ⟨by omega, ?_⟩
    rw [hlen]
    refine Ok_rowLoop (L := L) (i := i) (fun pre (s : Arr ℕ × Arr ℕ × Arr R) => s.1.size = A.n ∧
      s.2.1.size = p.get A.n ∧ s.2.2.size = p.get A.n ∧
      Scat A.n p.get pre s.1.get fun q => (s.2.1.get q, s.2.2.get q)) (by simp) hI ?_ fun s h => h
    rintro j hj ⟨iw, ix, vl⟩ ⟨hs1, hs2, hs3, hS⟩
    have hj' : j < A.wrow.get i := by rw [hlen]; exact hj
    have hc7 := h7 i hi
    have hx := h5 i hi
    have hy := h6 i hi
    have he := hkey i hi j hj
    have hpre := concatRows_take_prefix hi L hj
    have hlt := hS.lt_end hsegs hpre (by rw [hget]; exact he)
    have hst := hS.put_arr hsegs hpre (by rw [hget]; exact he)
    simp only [hget] at hst hlt hs1 hs2 hs3
    rw [Nat.zero_add, hget]
    simp only [Ok_bind, Ok_rd, Ok_wr, Ok_pure]
    exact ⟨by omega, by omega, by omega, by omega, by omega, by omega, by omega, by omega, by simpa,
      by simpa, by simpa, hst⟩
  · rintro ⟨iw, ix, vl⟩ ⟨hs1, hs2, hs3, hS⟩
    simp only [Ok_pure]
    refine ⟨trivial, trivial, by simp [hp], hp0, hsegs, rfl, ?_, ?_, _, hS⟩
    · simp only at hs2; simp [hs2]
    · simp only at hs3; simp [hs3]

end Lis
