import Verif.Lemmas.InputHb
import Verif.Props.Convert

/-!
# C65: Harwell-Boeing files

For every real unsymmetric assembled Harwell-Boeing file (any header layout, any field widths below 128, any number of
fields per line, with or without right hand sides), whatever uninitialised memory holds, `lis_input` gives the matrix
of the file, in whatever storage format the matrix was set to.
-/

namespace Lis
open Finset
variable {R : Type}

/-- the numbers read -/
structure HbRaw.Of (A : HbRaw R) (d : R) (n : ℕ) (P I : List ℕ) (V : List R) : Prop where
  hn : A.n = n
  hnnz : A.nnz = I.length
  psz : A.ptr.size = n + 1
  isz : A.index.size = I.length
  vsz : A.value.size = I.length
  ptr : ∀ k, k < n + 1 → A.ptr.get k = (P.getD k 0 : ℤ) - 1
  idx : ∀ k, k < I.length → A.index.get k = (I.getD k 0 : ℤ) - 1
  val : ∀ k, k < I.length → A.value.get k = V.getD k d

theorem forall2_atoi {fs : List (List Char)} {P : List ℕ} (h : List.Forall₂ NumField fs P) {k : ℕ} (hk : k < fs.length) :
    cAtoi (fs.getD k []) = (P.getD k 0 : ℤ) := by
  induction h generalizing k with
  | nil => simp at hk
  | cons h1 _ ih =>
    cases k with
    | zero => simpa using h1.atoi
    | succ k => simpa using ih (by simpa using hk)

/-- the header of a file: what is read, and the lines that follow -/
theorem hbHeader_spec (J : HbJunk R) {title l2 l3 l4 : List Char} {l5 tl : List (List Char)} {tot p i v r n nnz : ℕ}
    {pf xf vf : ℕ × ℕ} (c2 : CardLine l2 tot p i v r) (c3 : TypeLine l3 n nnz) (c4 : FormatLine l4 pf xf vf)
    (c5 : if r = 0 then l5 = [] else ∃ l, l5 = [l] ∧ RhsLine l) (hl : l4.length < 1024) (h0 : '\x00' ∉ l4) :
    ∃ b, hbHeader J (title :: l2 :: l3 :: l4 :: (l5 ++ tl)) =
      some (.ok (⟨p, i, v, n, nnz, (pf.1, pf.2), (xf.1, xf.2), (vf.1, vf.2)⟩, b, tl)) := by
  obtain ⟨m, s2, s2r⟩ := c2.scan
  obtain ⟨b3, hb3⟩ : ∃ b, b = bufPut (bufPut (bufPut J.buf title) l2) l3 := ⟨_, rfl⟩
  obtain ⟨g0, g1, g2, g3, hg3⟩ := c4.scan b3 hl h0 J.fmt
  unfold hbHeader
  simp only [s2, c3.scan, Option.bind_some, ← hb3, g0, g1, g2, hg3, s2r]
  unfold hbLine5
  by_cases hr : r = 0
  · rw [if_pos hr] at c5
    subst hr c5
    exact ⟨_, rfl⟩
  · rw [if_neg hr] at c5
    obtain ⟨l, rfl, hl5⟩ := c5
    have hr' : (r : ℤ) ≠ 0 := by omega
    have hs := hl5.scan
    simp only [ne_eq, hr', not_false_eq_true, if_true, List.cons_append, List.nil_append]
    rw [if_neg (by omega)]
    exact ⟨_, rfl⟩

/-- the reader itself: what ends up in the arrays given to `lis_matrix_set_csc` -/
theorem hbRead_spec (d : R) (num : List Char → R) (J : HbJunk R) {file : List (List Char)} {n : ℕ} {P I : List ℕ}
    {V : List R} (h : HbFile num file n P I V) :
    Ok (hbRead num J file) fun r => ∃ A, r = .ok A ∧ A.Of d n P I V := by
  obtain ⟨title, l2, l3, l4, l5, lp, li, lv, more, tot, r, pf, xf, vf, fp, fi, fv, rfl, c2, c3, c4, c5, wp, wi, wv,
    kp, ki, kv, ep, ei, ev⟩ := h.parts
  have hl := h.lines
  have hl4 := hl l4 (by simp)
  obtain ⟨b, hhead⟩ := hbHeader_spec J (title := title) (tl := lp ++ (li ++ (lv ++ more))) c2 c3 c4 c5 hl4.1 hl4.2
  have lfp : fp.length = n + 1 := by rw [ep.length_eq, h.plen]
  have lfi : fi.length = I.length := ei.length_eq
  have lfv : fv.length = I.length := by rw [← h.vlen, ev, List.length_map]
  have hn := h.npos
  unfold hbRead
  rw [hhead]
  simp only [Option.bind_some]
  rw [if_neg (by omega), if_neg (by omega)]
  simp only [Int.toNat_natCast]
  rw [Ok_obind]
  refine (Ok_hbCards (lim := n + 1) (fun f => cAtoi f - 1) wp (li ++ (lv ++ more)) lp b fp 0 (Arr.malloc (n + 1) J.ptr)
    (fun l hl' => hl l (by simp [hl'])) kp (by rw [lfp]; omega) rfl).mono ?_
  rintro _ ⟨ptr, b1, rfl, hp⟩
  simp only
  rw [Ok_obind]
  refine (Ok_hbCards (lim := I.length) (fun f => cAtoi f - 1) wi (lv ++ more) li b1 fi 0 (Arr.malloc I.length J.index)
    (fun l hl' => hl l (by simp [hl'])) ki (by rw [lfi]; omega) rfl).mono ?_
  rintro _ ⟨index, b2, rfl, hi⟩
  simp only
  rw [Ok_obind]
  refine (Ok_hbCards (lim := I.length) num wv more lv b2 fv 0 (Arr.malloc I.length J.value)
    (fun l hl' => hl l (by simp [hl'])) kv (by rw [lfv]; omega) rfl).mono ?_
  rintro _ ⟨value, b3, rfl, hv⟩
  simp only
  refine ⟨_, rfl, _, rfl, rfl, rfl, hp.1, hi.1, hv.1, fun k hk => ?_, fun k hk => ?_, fun k hk => ?_⟩
  · show ptr.get k = _
    rw [hp.all (by omega), forall2_atoi ep (by omega)]
  · show index.get k = _
    rw [hi.all (by omega), forall2_atoi ei (by omega)]
  · show value.get k = _
    rw [hv.all (by omega), ev, List.getD_eq_getElem?_getD, List.getD_eq_getElem?_getD, List.getElem?_map,
      List.getElem?_eq_getElem (by omega)]
    rfl

theorem HbFile.ge1 {num : List Char → R} {file : List (List Char)} {n : ℕ} {P I : List ℕ} {V : List R}
    (h : HbFile num file n P I V) : ∀ j, j ≤ n → 1 ≤ P.getD j 0 := by
  intro j
  induction j with
  | zero => intro _; rw [List.getD_eq_getElem?_getD, h.first]; simp
  | succ j ih => intro hj; exact le_trans (ih (by omega)) (h.mono j (by omega))

/-- the stored columns are a well-formed matrix with the entries of the file -/
theorem HbRaw.Of.csc [AddCommMonoid R] {A : HbRaw R} {num : List Char → R} {file : List (List Char)} {n : ℕ}
    {P I : List ℕ} {V : List R} (h : HbFile num file n P I V) (hA : A.Of 0 n P I V) :
    ∃ C, A.csc = some C ∧ C.WF ∧ C.n = n ∧ C.np = n ∧ (∀ i j, i < n → j < n → C.entry i j = hbMatrix P I V i j) ∧
      (HbDistinct n P I → C.NoDup) := by
  obtain ⟨h1, h2, h3, h4, h5, h6, h7, h8⟩ := hA
  have hge := h.ge1
  have hrow : ∀ k, k < I.length → 1 ≤ I.getD k 0 ∧ I.getD k 0 ≤ n := by
    intro k hk
    rw [List.getD_eq_getElem?_getD, List.getElem?_eq_getElem hk]
    exact h.rows _ (List.getElem_mem hk)
  have hle : ∀ j, j ≤ n → P.getD j 0 ≤ I.length + 1 := by
    intro j hj
    obtain ⟨d, hd⟩ : ∃ d, d = n - j := ⟨_, rfl⟩
    induction d generalizing j with
    | zero =>
      have : j = n := by omega
      rw [this, List.getD_eq_getElem?_getD, h.last]
      exact le_rfl
    | succ d ih =>
      exact le_trans (h.mono j (by omega)) (ih (j + 1) (by omega) (by omega))
  have hp : ∀ k, k ≤ n → (A.ptr.get k).toNat = P.getD k 0 - 1 := by
    intro k hk
    rw [h6 k (by omega)]
    have := hge k hk
    omega
  have hi : ∀ k, k < I.length → (A.index.get k).toNat = I.getD k 0 - 1 := by
    intro k hk
    rw [h7 k hk]
    have := hrow k hk
    omega
  unfold HbRaw.csc
  rw [if_pos ⟨fun k hk => by rw [h6 k (by omega)]; have := hge k (by omega); omega,
    fun k hk => by rw [h7 k (by omega)]; have := hrow k (by omega); omega⟩]
  refine ⟨_, rfl, ⟨⟨?_, ?_, fun i hi' => ?_, ?_⟩, ?_, ?_, fun k hk => ?_⟩, h1, h1, fun i j hi' hj => ?_, fun hd => ?_⟩
  · show A.n + 1 ≤ A.ptr.size
    omega
  · show (A.ptr.get 0).toNat = 0
    rw [hp 0 (by omega), List.getD_eq_getElem?_getD, h.first]
    rfl
  · have hi' : i < A.n := hi'
    show (A.ptr.get i).toNat ≤ (A.ptr.get (i + 1)).toNat
    rw [hp i (by omega), hp (i + 1) (by omega)]
    have := h.mono i (by omega)
    omega
  · show (A.ptr.get A.n).toNat = A.nnz
    rw [h1, hp n le_rfl, List.getD_eq_getElem?_getD, h.last, h2]
    rfl
  · show A.nnz ≤ A.index.size
    omega
  · show A.nnz ≤ A.value.size
    omega
  · have hk : k < A.nnz := hk
    show (A.index.get k).toNat < A.n
    rw [hi k (by omega)]
    have := hrow k (by omega)
    omega
  · show ∑ k ∈ Ico (A.ptr.get j).toNat (A.ptr.get (j + 1)).toNat, _ = hbMatrix P I V i j
    unfold hbMatrix
    rw [hp j (by omega), hp (j + 1) (by omega)]
    refine sum_congr rfl fun k hk => ?_
    rw [mem_Ico] at hk
    have hkl : k < I.length := by
      have := hle (j + 1) (by omega)
      omega
    show (if (A.index.get k).toNat = i then A.value.get k else 0) = _
    rw [hi k hkl, h8 k hkl]
    have := hrow k hkl
    by_cases hc : I.getD k 0 = i + 1
    · rw [if_pos hc, if_pos (by omega)]
    · rw [if_neg hc, if_neg (by omega)]
  · intro j hj k l k1 k2 l1 l2 e
    have hj : j < n := by have : j < A.n := hj; omega
    have k1 : (A.ptr.get j).toNat ≤ k := k1
    have k2 : k < (A.ptr.get (j + 1)).toNat := k2
    have l1 : (A.ptr.get j).toNat ≤ l := l1
    have l2 : l < (A.ptr.get (j + 1)).toNat := l2
    rw [hp j (by omega)] at k1 l1
    rw [hp (j + 1) (by omega)] at k2 l2
    have hb := hle (j + 1) (by omega)
    have e : (A.index.get k).toNat = (A.index.get l).toNat := e
    rw [hi k (by omega), hi l (by omega)] at e
    have a1 := hrow k (by omega)
    have a2 := hrow l (by omega)
    exact hd j hj k l k1 k2 l1 l2 (by omega)

/-- what a conversion to `t` needs of the matrix in the file (the same as for `lis_matrix_convert`) -/
def HbSuits [AddCommMonoid R] (a : ConvArgs) (t : Fmt) (n : ℕ) (P I : List ℕ) (V : List R) : Prop :=
  match t with
  | .dns => HbDistinct n P I
  | .msr => HbDistinct n P I ∧ ∀ i, i < n → hbMatrix P I V i i ≠ 0
  | .dia => HbDistinct n P I ∧ ∃ i j, i < n ∧ j < n ∧ hbMatrix P I V i j ≠ 0
  | .bsr => HbDistinct n P I ∧ 0 < a.bnr ∧ 0 < a.bnc
  | .bsc => HbDistinct n P I ∧ 0 < a.bnr ∧ a.bnr = a.bnc
  | .vbr => HbDistinct n P I ∧ match a.part with
    | some (nr, nc, row, col) => PtrWF nr n row ∧ PtrWF nc n col
    | none => ∃ i, i < n ∧ hbMatrix P I V i (n - 1) ≠ 0
  | .other => False
  | _ => True

/-- **C65.** Reading a Harwell-Boeing file: success, and the matrix of the file in storage format `t`, whatever was in
uninitialised memory. -/
theorem inputHb_spec [AddCommMonoid R] [DecidableEq R] (num : List Char → R) (J : HbJunk R) (C : ConvJunk R)
    (a : ConvArgs) (t : Fmt) {file : List (List Char)} {n : ℕ} {P I : List ℕ} {V : List R}
    (h : HbFile num file n P I V) (ht : HbSuits a t n P I V) :
    Ok (inputHb num J C a t file) fun r => ∃ B, r = .ok B ∧ B.fmt = t ∧ B.WF ∧ B.n = n ∧
      ∀ i j, i < n → j < n → B.entry i j = hbMatrix P I V i j := by
  unfold inputHb
  rw [Ok_obind]
  refine (hbRead_spec 0 num J h).mono ?_
  rintro _ ⟨A, rfl, hA⟩
  obtain ⟨M, e, hwf, hn, hnp, hent, hnd⟩ := HbRaw.Of.csc h hA
  simp only
  rw [e]
  simp only [Option.bind_some]
  by_cases hcsc : t = .csc
  · rw [if_pos hcsc]
    exact ⟨_, rfl, _, rfl, hcsc.symm, ⟨hwf, by omega⟩, hn, hent⟩
  rw [if_neg hcsc, Ok_obind]
  have hd : Ok (csc2csr C.i1 C.v1 M) fun B => HbDistinct n P I → B.NoDup := by
    by_cases hdd : HbDistinct n P I
    · exact (csc2csr_nodup C.i1 C.v1 hwf (hnd hdd)).mono fun _ hB _ => hB
    · exact (csc2csr_spec C.i1 C.v1 M hwf).mono fun _ _ hx => absurd hx hdd
  refine ((csc2csr_spec C.i1 C.v1 M hwf).conj hd).mono ?_
  rintro B ⟨⟨b1, b2, b3, b4⟩, b5⟩
  have bent : ∀ i j, i < n → j < n → B.entry i j = hbMatrix P I V i j := fun i j hi hj => by
    rw [b4 i j (by omega) (by omega), hent i j hi hj]
  by_cases hcsr : t = .csr
  · rw [if_pos hcsr]
    exact ⟨_, rfl, _, rfl, hcsr.symm, ⟨b1, by omega⟩, by show B.n = n; omega, bent⟩
  rw [if_neg hcsr, Ok_obind]
  have hBn : (AnyMat.csr B).n = n := by show B.n = n; omega
  have hsuit : (AnyMat.csr B).Suits a t := by
    unfold AnyMat.Suits
    rw [hBn]
    unfold HbSuits at ht
    cases t with
    | dns => exact b5 ht
    | msr => exact ⟨b5 ht.1, fun i hi => by rw [show (AnyMat.csr B).entry i i = B.entry i i from rfl, bent i i hi hi]; exact ht.2 i hi⟩
    | dia =>
      obtain ⟨h1, i, j, hi, hj, hne⟩ := ht
      exact ⟨b5 h1, i, j, hi, hj, by rw [show (AnyMat.csr B).entry i j = B.entry i j from rfl, bent i j hi hj]; exact hne⟩
    | bsr => exact ⟨b5 ht.1, ht.2⟩
    | bsc => exact ⟨b5 ht.1, ht.2⟩
    | vbr =>
      refine ⟨b5 ht.1, ?_⟩
      have h2 := ht.2
      cases hpart : a.part with
      | none =>
        rw [hpart] at h2
        obtain ⟨i, hi, hne⟩ := h2
        have := h.npos
        exact Or.inr ⟨i, hi, by
          rw [show (AnyMat.csr B).entry i (n - 1) = B.entry i (n - 1) from rfl, bent i (n - 1) hi (by omega)]; exact hne⟩
      | some q =>
        rw [hpart] at h2
        exact h2
    | other => exact ht.elim
    | _ => trivial
  have hother : t ≠ .other := by
    rintro rfl
    exact ht
  refine (matrixConvert_spec C a t (.csr B) ⟨b1, by omega⟩ trivial hother hsuit).mono ?_
  rintro ⟨er, A', B'⟩ ⟨h1, _, _, D, h2, h3, h4⟩
  simp only at h1 h2
  subst h1 h2
  simp only
  refine ⟨_, rfl, D, rfl, h3, h4.1, ?_, fun i j hi hj => ?_⟩
  · rw [h4.2.1, hBn]
  · rw [h4.2.2 i j (by rw [hBn]; exact hi) (by rw [hBn]; exact hj)]
    exact bent i j hi hj

end Lis
