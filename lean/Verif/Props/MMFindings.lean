import Verif.Props.MMRoundTrip
import Verif.Lemmas.Assembly2
import Mathlib.Data.Complex.Basic

/-
C33: dense (`array`) files; inputs on which the Matrix Market reader misbehaves; examples.
-/
namespace Lis
open Finset
variable {K R : Type}

theorem ValueLine.scan {io : NumIO K R} {t : MMType} {l : Line K} {v : R} (h : ValueLine io t l v) :
    ∃ r, scanVal t l = some r ∧ v = mirVal io r.1 r.2 := by
  obtain ⟨x, ws, re, hw, hx, ht⟩ := h
  unfold scanVal
  simp only [hw, hx]
  cases t with
  | real => exact ⟨_, rfl, ht⟩
  | complex =>
    obtain ⟨y, ws', im, rfl, hy, hv⟩ := ht
    simp only [hy]
    exact ⟨_, rfl, hv⟩

theorem ValueLine.scans {io : NumIO K R} {t : MMType} {data : List (Line K)} {V : List R}
    (h : List.Forall₂ (ValueLine io t) data V) :
    ∃ es, List.Forall₂ (fun l a => scanVal t l = some a) data es ∧ V = es.map fun r => mirVal io r.1 r.2 := by
  induction h with
  | nil => exact ⟨[], .nil, rfl⟩
  | cons h1 h2 ih =>
    obtain ⟨es, e1, e2⟩ := ih
    obtain ⟨r, r1, r2⟩ := h1.scan
    exact ⟨r :: es, .cons r1 e1, by rw [e2, r2]; rfl⟩

/-- **C33.** An `array` file is stored in the order of the file, i.e. by columns, which is LIS's
order for dense matrices: `value[j*N+i]` is the `(j*N+i)`-th value listed. -/
theorem mmDns_spec [Zero R] (io : NumIO K R) (t : MMType) (J : MMJunk K R) {comments : List (Line K)}
    {sz : Line K} {data rest : List (Line K)} {V : List R} {N : ℕ} {M : ℤ} {isb isx : Bool}
    (hc : ∀ l ∈ comments, l.pct = true) (hsz : SizeLine sz N M isb isx) (hN : 0 < N)
    (hV : List.Forall₂ (ValueLine io t) data V) (hlen : V.length = N * N) :
    Ok (mmDns io t J (comments ++ sz :: (data ++ rest))) fun r =>
      ∃ v, r = .ok (N, v) ∧ v.size = N * N ∧ ∀ q (hq : q < V.length), v.get q = V[q] := by
  obtain ⟨es, h1, h2⟩ := ValueLine.scans hV
  have hp := parseN_append data rest es h1
  have hl : es.length = N * N := by rw [← hlen, h2, List.length_map]
  unfold mmDns
  rw [hsz.size J.size comments _ hc]
  simp only
  rw [if_neg (by omega)]
  have hcnt : ((N : ℤ) * N).toNat = es.length := by rw [hl, ← Int.natCast_mul, Int.toNat_natCast]
  simp only [ne_eq, not_true_eq_false, if_false, Ok_obind, hcnt, Int.toNat_natCast]
  refine (Ok_readLoop_some (es := es) (fun _ _ => True) _ _ [] es _ hp rfl trivial
    fun pre a s _ _ => by rw [Ok_some]; trivial).mono ?_
  rintro r ⟨s', rfl, _⟩
  simp only [Ok_obind]
  refine Ok_fillConst (by simp) fun v0 hv0 _ => ?_
  simp only [Arr.malloc_size] at hv0
  refine (Ok_readLoop_some (es := es) (fun pre (s : ℕ × Arr R) => s.1 = pre.length ∧ s.2.size = es.length ∧
    ∀ q (hq : q < pre.length), s.2.get q = mirVal io pre[q].1 pre[q].2) _ _ [] es _ hp rfl
    ⟨rfl, hv0, by simp⟩ ?_).mono ?_
  · rintro pre a ⟨k, v⟩ hpre ⟨i1, i2, i3⟩
    simp only at i1 i2 i3
    subst i1
    have := hpre.length_le
    simp only [List.length_append, List.length_singleton] at this
    simp only [Ok_bind, Ok_wr, Ok_pure]
    refine ⟨by omega, by simp, by simpa, fun q hq => ?_⟩
    simp only [List.length_append, List.length_singleton] at hq
    rw [Arr.set_get]
    split
    · next hh => subst hh; simp
    · rw [i3 q (by omega), List.getElem_append_left (by omega)]
  · rintro r ⟨⟨k, v⟩, rfl, i1, i2, i3⟩
    simp only [Ok_some]
    refine ⟨v, rfl, by rw [i2, hl], fun q hq => ?_⟩
    rw [i3 q (by rw [hl, ← hlen]; exact hq)]
    simp only [h2, List.getElem_map]

/-- **C33 (finding).** The structure word of an `array` file is ignored: a file that lists fewer than
`N*N` values — such as a `symmetric` one, which lists the lower triangle — is rejected. -/
theorem mmInput_dns_short [Zero R] (io : NumIO K R) (cplx vecs : Bool) {t : MMType} {st : MMStruct}
    (ht : cplx = true ∨ t = .real) (hs : cplx = true ∨ st ≠ .herm) (J : MMJunk K R)
    {bl sz : Line K} {data : List (Line K)} (hb : BannerLine bl .dns t st) {N : ℕ} {M : ℤ} {isb isx : Bool}
    (hN : 0 < N) (hsz : SizeLine sz N M isb isx) (hlen : data.length < N * N) :
    mmInput io cplx vecs J (bl :: sz :: data) = some (.error .fileIo) := by
  have hp : ∀ (k : ℕ) (data : List (Line K)), data.length < k → parseN (scanVal t) k data = none := by
    intro k
    induction k with
    | zero => intro data h; omega
    | succ k ih =>
      intro data h
      cases data with
      | nil => rfl
      | cons l data =>
        simp only [parseN]
        cases scanVal t l with
        | none => rfl
        | some a => simp only [Option.map_eq_none_iff]; exact ih data (by simpa using h)
  have hsize := hsz.size J.size [] data (by simp)
  rw [List.nil_append] at hsize
  have hcnt : ((N : ℤ) * N).toNat = N * N := by rw [← Int.natCast_mul, Int.toNat_natCast]
  have hread : readLoop (scanVal t) (fun _ (s : Unit) => some s) (N * N) data () = some (.error .fileIo) := by
    obtain ⟨r, h1, h2⟩ := Ok_readLoop_none (scan := scanVal t) (f := fun _ (s : Unit) => some s) (fun _ => True)
      (fun a s _ => by rw [Ok_some]; trivial) (N * N) data () (hp _ data hlen) trivial
    rw [h1, h2]
  unfold mmInput
  rw [mmBanner_spec cplx hb ht hs _, Option.bind_some]
  simp only [List.tail_cons]
  unfold mmDns
  rw [hsize]
  simp only
  rw [if_neg (by omega)]
  simp only [ne_eq, not_true_eq_false, if_false, hcnt, hread, Option.bind_some]

/-- **C33 (finding).** A banner with fewer than five words, or with a word of 64 characters or more,
makes the reader use uninitialised memory or overflow its buffers. -/
theorem mmBanner_bad (cplx : Bool) (l : Line K) (rest : List (Line K))
    (h : l.words.length < 5 ∨ ∃ k w, k < 5 ∧ l.words[k]? = some w ∧ 64 ≤ w.txt.length) :
    mmBanner cplx (l :: rest) = none := by
  have hk : ∃ k, k < 5 ∧ bannerWord l k = none := by
    rcases h with h | ⟨k, w, h1, h2, h3⟩
    · refine ⟨4, by omega, ?_⟩
      unfold bannerWord
      rw [List.getElem?_eq_none (by omega)]
    · refine ⟨k, h1, ?_⟩
      unfold bannerWord
      simp only [h2, if_neg (show ¬ w.txt.length < 64 by omega)]
  obtain ⟨k, hk, hn⟩ := hk
  unfold mmBanner
  simp only
  cases h0 : bannerWord l 0 with
  | none => rfl
  | some w0 =>
  cases h1 : bannerWord l 1 with
  | none => rfl
  | some w1 =>
  cases h2 : bannerWord l 2 with
  | none => rfl
  | some w2 =>
  cases h3 : bannerWord l 3 with
  | none => rfl
  | some w3 =>
  cases h4 : bannerWord l 4 with
  | none => rfl
  | some w4 =>
    exfalso
    rcases k with _ | _ | _ | _ | _ | k
    · rw [h0] at hn; cases hn
    · rw [h1] at hn; cases hn
    · rw [h2] at hn; cases hn
    · rw [h3] at hn; cases hn
    · rw [h4] at hn; cases hn
    · omega

/-- **C33 (finding).** A file that announces a right-hand side but ends before it: `work` is freed
twice. -/
theorem mmCsr_vec_truncated [AddCommMonoid R] [Star R] (io : NumIO K R) (t : MMType) {st : MMStruct}
    (hst : st ≠ .herm) (J : MMJunk K R) {file rest : List (Line K)} {N : ℤ} {isx : Bool}
    {E : List (MMEnt R)} (hN : 0 < N) (h : CoordFile io t file N true isx E rest)
    (hr : rest.length < N.toNat) : mmCsr io t st true J file = none := by
  obtain ⟨comments, sz, data, rfl, hc, hsz, hE⟩ := h
  unfold mmCsr
  rw [hsz.size J.size comments _ hc]
  simp only
  rw [if_neg (by omega)]
  simp only [ne_eq, not_true_eq_false, if_false]
  obtain ⟨r, h1, A, rfl, _⟩ := mmCsrRows_spec io t hst 0 N.toNat hE rest J.nat J.int J.val
  rw [h1]
  simp only [Option.bind_some, if_true]
  have hp : ∀ (k : ℕ) (data : List (Line K)), data.length < k → parseN (scanVec t) k data = none := by
    intro k
    induction k with
    | zero => intro data h; omega
    | succ k ih =>
      intro data h
      cases data with
      | nil => rfl
      | cons l data =>
        simp only [parseN]
        cases scanVec t l with
        | none => rfl
        | some a => simp only [Option.map_eq_none_iff]; exact ih data (by simpa using h)
  have hB : mmReadB io t 0 N.toNat N.toNat J.last rest = some (.error .fileIo) := by
    unfold mmReadB
    obtain ⟨r, h1, h2⟩ := Ok_readLoop_none (scan := scanVec t)
      (f := fun e (s : Arr R × (ℤ × K × K)) =>
        if ((0 : ℕ) : ℤ) ≤ e.1 - 1 ∧ e.1 - 1 < (N.toNat : ℤ) then do
          let v ← s.1.wrI (e.1 - 1 - (0 : ℕ)) (mirVal io e.2.1 e.2.2)
          pure (v, (e.1 - 1, e.2.1, e.2.2.getD s.2.2.2))
        else pure (s.1, (e.1 - 1, e.2.1, e.2.2.getD s.2.2.2)))
      (fun s => s.1.size = N.toNat)
      (fun a s hs => by
        simp only [Ok_ite, Ok_bind, Ok_wrI, Ok_pure]
        exact ⟨fun hh => ⟨by omega, by omega, by simpa⟩, fun _ => hs⟩)
      N.toNat rest (⟨N.toNat - 0, fun _ => 0⟩, J.last) (hp _ rest hr) (by simp)
    rw [h2] at h1
    exact h1
  unfold mmVec
  rw [if_neg (by simp)]
  simp only [if_true, hB]
  rfl

/-! ### examples -/

/-- printed integers and words over `K = ℤ` -/
def exInt (z : ℤ) : Word ℤ := ⟨[], some z, some z⟩
def exWord (s : String) : Word ℤ := ⟨s.toList, none, none⟩
def exLine (zs : List ℤ) : Line ℤ := ⟨false, zs.map exInt⟩
def exIO : NumIO ℤ ℤ := ⟨id, fun a _ => a, fun a _ => a⟩
def exJunk : MMJunk ℤ ℤ := ⟨fun _ => 7, fun _ => 7, fun _ => 7, fun _ => 7, (7, 7, 7)⟩
def exBanner (s : String) : Line ℤ :=
  ⟨true, [exWord "%%MatrixMarket", exWord "Matrix", exWord "coordinate", exWord "REAL", exWord s]⟩

attribute [local instance] starRingOfComm in
/-- a symmetric 2×2 file with a comment meets the hypotheses of `mmInput_spec` -/
example : BannerLine (exBanner "Symmetric") .coo .real .symm ∧
    CoordFile exIO .real [⟨true, []⟩, exLine [2, 2, 2], exLine [1, 1, 5], exLine [2, 1, 3]] 2 false false
      [⟨1, 1, 5⟩, ⟨2, 1, 3⟩] [] ∧
    mmMatrix .symm ([⟨1, 1, 5⟩, ⟨2, 1, 3⟩] : List (MMEnt ℤ)) 0 1 = 3 := by
  refine ⟨⟨"Matrix".toList, "coordinate".toList, "REAL".toList, "Symmetric".toList, by decide, by decide, by decide,
    by decide, by decide⟩, ⟨[⟨true, []⟩], exLine [2, 2, 2], [exLine [1, 1, 5], exLine [2, 1, 3]], rfl, by simp,
    ⟨rfl, exInt 2, exInt 2, exInt 2, rfl, rfl, rfl, .inl ⟨rfl, rfl, rfl⟩⟩,
    .cons ⟨_, _, _, _, 5, rfl, rfl, rfl, rfl, rfl⟩ (.cons ⟨_, _, _, _, 3, rfl, rfl, rfl, rfl, rfl⟩ .nil)⟩, by decide⟩

/-- a printer and parts meeting the hypotheses of the round-trip theorems -/
example : (⟨exInt, exInt, exWord⟩ : Printer ℤ).Exact ∧ PartsOk exIO (⟨id, id⟩ : Parts ℤ ℤ) false :=
  ⟨⟨fun _ => rfl, fun _ => rfl, fun _ => rfl⟩, fun _ => rfl⟩

/-- **C33 (finding).** Column indices are not checked: this 2×2 file lists an entry in column 5; it
is accepted and column index 4 is stored. -/
theorem mmCsr_column_unchecked :
    ∃ A, mmCsr exIO .real .general false exJunk [exLine [2, 2, 1], exLine [1, 5, 3]] = some (.ok (A, none, none)) ∧
      A.n = 2 ∧ A.nnz = 1 ∧ A.index.get 0 = 4 := ⟨_, rfl, by decide, by decide, by decide⟩

/-- **C33 (finding).** Rows out of range are dropped silently. -/
theorem mmCsr_row_dropped :
    ∃ A, mmCsr exIO .real .general false exJunk [exLine [2, 2, 1], exLine [5, 1, 3]] = some (.ok (A, none, none)) ∧
      A.n = 2 ∧ A.nnz = 0 := ⟨_, rfl, by decide, by decide⟩

/-- the complex build -/
def cxIO : NumIO ℝ ℂ := ⟨fun a => ⟨a, 0⟩, fun a b => ⟨a, b⟩, fun a b => ⟨a, -b⟩⟩

/-- the hypotheses of `mmCsrRows_herm` hold for the complex build -/
example : (∀ a b, cxIO.cxc a b = star (cxIO.cx a b)) ∧ ∀ a, star (cxIO.re a) = cxIO.re a :=
  ⟨fun _ _ => rfl, fun a => by apply Complex.ext <;> simp [cxIO]⟩

/-- **C33 (finding).** Reading the Hermitian file whose entry `(2,1)` is `i` gives `-i` there. -/
theorem mmCsrRows_herm_witness (l : Line ℝ) (h : EntryLine cxIO .complex l ⟨2, 1, Complex.I⟩)
    (jI : ℕ → ℕ) (jZ : ℕ → ℤ) (jR : ℕ → ℂ) :
    Ok (mmCsrRows cxIO .complex .herm 0 2 1 [l] jI jZ jR) fun r =>
      ∃ A, r = .ok (A, []) ∧ A.entry 1 0 = -Complex.I ∧
        mmMatrix .herm ([⟨2, 1, Complex.I⟩] : List (MMEnt ℂ)) 1 0 = Complex.I := by
  have := mmCsrRows_herm cxIO .complex 0 2 (fun _ _ => rfl) (fun a => by apply Complex.ext <;> simp [cxIO])
    (.cons h .nil) [] jI jZ jR
  refine this.mono ?_
  rintro r ⟨A, rfl, _, _, h3⟩
  have hm : mmMatrix .herm ([⟨2, 1, Complex.I⟩] : List (MMEnt ℂ)) 1 0 = Complex.I := by
    simp [mmMatrix, mmHermitian, mmGeneral, mmMirror]
  refine ⟨A, rfl, ?_, hm⟩
  rw [h3 1 (by omega) 0]
  have h1 : (((0 + 1 : ℕ) : ℤ)) = 1 := rfl
  rw [h1, hm]
  simp

end Lis
