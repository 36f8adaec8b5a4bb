import Verif.Model.Vector
import Verif.Base.Sum

/-!
# C19: vector element access behaves like a bounded map

User indices: `u` is valid for a vector on rows `[is,ie)` when `is + origin ≤ u < ie + origin`.
-/

namespace Lis
variable {R : Type}

/-- the origin offset (0 or 1) -/
def AVec.off (v : AVec R) : ℤ := if v.origin then 1 else 0
/-- valid user index -/
def AVec.Valid (v : AVec R) (u : ℤ) : Prop := v.base + v.off ≤ u ∧ u < v.ie + v.off
instance (v : AVec R) (u : ℤ) : Decidable (v.Valid u) := inferInstanceAs (Decidable (_ ∧ _))
/-- a vector whose size has been set: its block holds the rows `[is,ie)` -/
structure AVec.Ready (v : AVec R) : Prop where
  rows : v.ie = v.base + v.n
  alloc : v.null = false
  size : v.n ≤ v.value.size

/-- element stored for the user index `u` -/
def AVec.at (v : AVec R) (u : ℤ) : R := v.value.get (u - v.off - v.base).toNat

/-- `lis_vector_get_value` on a valid index returns the element, on any other index LIS_ERR_ILL_ARG and nothing. -/
theorem avecGetValue_spec (v : AVec R) (hv : v.Ready) (u : ℤ) :
    avecGetValue u v = if v.Valid u then some (.success, some (v.at u)) else some (.illArg, none) := by
  obtain ⟨h1, h2, h3⟩ := hv
  have hi : (if v.origin then u - 1 else u) = u - v.off := by unfold AVec.off; split <;> omega
  unfold avecGetValue
  simp only [hi]
  by_cases hval : v.Valid u
  · rw [if_pos hval]
    unfold AVec.Valid at hval
    rw [if_neg (by omega), Arr.rdI, if_pos (by omega), Arr.rd, if_pos (by omega)]; rfl
  · rw [if_neg hval]
    unfold AVec.Valid at hval
    rw [if_pos (by omega)]

/-- specification: effect of one set call on the map from user indices to elements -/
def setEl [Add R] (valid : ℤ → Prop) [DecidablePred valid] (m : ℤ → R) (c : ℤ × ℤ × R) : ℤ → R :=
  if valid c.2.1 then fun u => if u = c.2.1 then (if c.1 = 0 then c.2.2 else m u + c.2.2) else m u else m

/-- one `lis_vector_set_value` call `c = (flag, index, value)` -/
theorem avecSetValue_spec [Add R] (junk : ℕ → R) (v : AVec R) (hv : v.Ready) (c : ℤ × ℤ × R) :
    Ok (avecSetValue junk c.1 c.2.1 c.2.2 v) fun r =>
      r.1 = (if v.Valid c.2.1 then .success else .illArg) ∧ (¬ v.Valid c.2.1 → r.2 = v) ∧
      r.2.Ready ∧ r.2.Valid = v.Valid ∧ r.2.n = v.n ∧
      ∀ u, v.Valid u → r.2.at u = setEl v.Valid v.at c u := by
  obtain ⟨fl, u0, a⟩ := c
  obtain ⟨h1, h2, h3⟩ := hv
  have hi : (if v.origin then u0 - 1 else u0) = u0 - v.off := by unfold AVec.off; split <;> omega
  unfold avecSetValue setEl
  simp only [hi, h2, Bool.false_eq_true, if_false]
  by_cases hval : v.Valid u0
  · have hval' := hval
    unfold AVec.Valid at hval
    rw [if_neg (by omega)]
    simp only [Ok_bind, Ok_ite, Ok_rdI, Ok_wrI, Ok_pure, if_pos hval']
    have key : ∀ b : R, (∀ u, v.Valid u →
        (v.value.set (u0 - v.off - v.base).toNat b).get (u - v.off - v.base).toNat =
          if u = u0 then b else v.at u) := by
      intro b u hu
      unfold AVec.Valid at hu
      rw [Arr.set_get]
      by_cases e : u = u0
      · subst e; simp
      · rw [if_neg (by omega), if_neg e]; rfl
    refine ⟨fun hf => ?_, fun hf => ?_⟩
    · refine ⟨by omega, by omega, trivial, fun h => absurd hval' h, ⟨h1, rfl, h3⟩, rfl, trivial, ?_⟩
      intro u hu
      exact (key a u hu).trans (by simp [hf])
    · refine ⟨by omega, by omega, by omega, by omega, trivial, fun h => absurd hval' h, ⟨h1, rfl, h3⟩, rfl, trivial, ?_⟩
      intro u hu
      refine (key _ u hu).trans ?_
      split
      · next e => subst e; rfl
      · rfl
  · have hval' := hval
    unfold AVec.Valid at hval
    rw [if_pos (by omega), Ok_some]
    rw [if_neg hval']
    exact ⟨rfl, fun _ => rfl, ⟨h1, h2, h3⟩, rfl, rfl, fun _ _ => by rw [if_neg hval']⟩

/-- a sequence of `lis_vector_set_value` calls; returns their codes in order -/
def avecSetCalls [Add R] (junk : ℕ → R) : List (ℤ × ℤ × R) → AVec R → Option (List Err × AVec R)
  | [], v => some ([], v)
  | c :: cs, v => do
    let r ← avecSetValue junk c.1 c.2.1 c.2.2 v
    let q ← avecSetCalls junk cs r.2
    pure (r.1 :: q.1, q.2)

/-- **C19.** Any sequence of set calls leaves the vector holding exactly what a map would hold; the calls with a
valid index succeed, the others are rejected. -/
theorem avecSetCalls_spec [Add R] (junk : ℕ → R) (cs : List (ℤ × ℤ × R)) (v : AVec R) (hv : v.Ready) :
    Ok (avecSetCalls junk cs v) fun r =>
      r.1 = cs.map (fun c => if v.Valid c.2.1 then .success else .illArg) ∧ r.2.Ready ∧ r.2.Valid = v.Valid ∧
      r.2.n = v.n ∧ ∀ u, v.Valid u → avecGetValue u r.2 = some (.success, some (cs.foldl (setEl v.Valid) v.at u)) := by
  suffices H : ∀ (cs : List (ℤ × ℤ × R)) (v0 v : AVec R) (m : ℤ → R), v.Ready → v.Valid = v0.Valid → v.n = v0.n →
      (∀ u, v0.Valid u → v.at u = m u) →
      Ok (avecSetCalls junk cs v) fun r =>
      r.1 = cs.map (fun c => if v0.Valid c.2.1 then .success else .illArg) ∧ r.2.Ready ∧ r.2.Valid = v0.Valid ∧
      r.2.n = v0.n ∧ ∀ u, v0.Valid u →
        avecGetValue u r.2 = some (.success, some (cs.foldl (setEl v0.Valid) m u)) from
    H cs v v v.at hv rfl rfl (fun _ _ => rfl)
  intro cs
  induction cs with
  | nil =>
    intro v0 v m hv hval hn hm
    simp only [avecSetCalls, Ok_some, List.map_nil, List.foldl_nil]
    refine ⟨trivial, hv, hval, hn, fun u hu => ?_⟩
    rw [avecGetValue_spec v hv, if_pos (by rw [hval]; exact hu), hm u hu]
  | cons c cs ih =>
    intro v0 v m hv hval hn hm
    simp only [avecSetCalls, Ok_bind, Ok_pure]
    refine (avecSetValue_spec junk v hv c).mono ?_
    rintro ⟨e, v'⟩ ⟨h1, h2, h3, h4, h5, h6⟩
    simp only at h1 h2 h3 h4 h5 h6 ⊢
    have hv'0 := h4.trans hval
    refine (ih v0 v' (setEl v0.Valid m c) h3 hv'0 (h5.trans hn) ?_).mono ?_
    · intro u hu
      rw [h6 u (by rw [hval]; exact hu)]
      unfold setEl
      have : v.Valid c.2.1 ↔ v0.Valid c.2.1 := by rw [hval]
      by_cases hc : v0.Valid c.2.1
      · rw [if_pos (this.2 hc), if_pos hc]
        split
        · split
          · rfl
          · rw [hm u hu]
        · exact hm u hu
      · rw [if_neg (fun h => hc (this.1 h)), if_neg hc]; exact hm u hu
    · rintro ⟨es, w⟩ ⟨g1, g2, g3, g4, g5⟩
      simp only at g1 g2 g3 g4 g5 ⊢
      refine ⟨?_, g2, g3, g4, g5⟩
      rw [g1, h1, List.map_cons]
      have : v.Valid c.2.1 ↔ v0.Valid c.2.1 := by rw [hval]
      by_cases hc : v0.Valid c.2.1
      · rw [if_pos (this.2 hc), if_pos hc]
      · rw [if_neg (fun h => hc (this.1 h)), if_neg hc]

/-- after `lis_vector_set_size` the vector is usable and holds zeros -/
theorem avecSetSize_spec [Zero R] (junk : ℕ → R) (l g : ℤ) (v : AVec R) (hl : 0 ≤ l) (hg : 0 ≤ g)
    (hlg : g > 0 → l ≤ g) :
    Ok (avecSetSize junk l g v) fun r => r.1 = .success ∧ r.2.Ready ∧
      (r.2.n : ℤ) = (if l = 0 then g else l) ∧ r.2.origin = v.origin ∧ r.2.base = 0 ∧
      ∀ u, r.2.Valid u → r.2.at u = 0 := by
  unfold avecSetSize
  rw [if_neg (by omega), if_neg (by omega)]
  simp only [Ok_bind]
  refine Ok_loop_fill (fun _ => 0) ?_ ?_
  · intro i y _ h2 hsz _ _
    rw [Ok_wr]; exact ⟨by rw [hsz]; exact h2, rfl⟩
  · intro y hsz hg' _
    rw [Ok_pure]
    refine ⟨rfl, ⟨?_, rfl, ?_⟩, ?_, rfl, rfl, ?_⟩
    · simp
    · exact le_of_eq hsz.symm
    · simp only; split <;> omega
    · intro u hu
      simp only [AVec.Valid] at hu
      refine hg' _ (Nat.zero_le _) ?_
      show (u - _ - (0 : ℕ)).toNat < _
      have h1 := hu.1; have h2 := hu.2
      simp only [AVec.off] at h1 h2 ⊢
      omega

/-- negative sizes, or a local size above a positive global size, are rejected -/
theorem avecSetSize_reject [Zero R] (junk : ℕ → R) (l g : ℤ) (v : AVec R) (h : l < 0 ∨ g < 0 ∨ (g > 0 ∧ l > g)) :
    avecSetSize junk l g v = some (.illArg, v) := by
  unfold avecSetSize
  split
  · rfl
  · rw [if_pos (by omega)]

/-- `lis_vector_get_values` copies a valid run of elements; anything else is rejected without a write -/
theorem avecGetValues_spec (start : ℤ) (count : ℕ) (out : Arr R) (v : AVec R) (hv : v.Ready)
    (ho : count ≤ out.size) :
    Ok (avecGetValues start count out v) fun r =>
      if v.Valid start ∧ start + count ≤ v.ie + v.off then
        r.1 = .success ∧ r.2.size = out.size ∧
          ∀ i, r.2.get i = if i < count then v.at (start + i) else out.get i
      else r.1 = .illArg ∧ r.2 = out := by
  obtain ⟨h1, h2, h3⟩ := hv
  have hi : (if v.origin then start - 1 else start) = start - v.off := by unfold AVec.off; split <;> omega
  unfold avecGetValues
  simp only [hi]
  by_cases hval : v.Valid start
  · have hval' := hval
    unfold AVec.Valid at hval
    rw [if_neg (by omega)]
    by_cases hc : start + count ≤ v.ie + v.off
    · rw [if_neg (by omega)]
      simp only [Ok_bind]
      refine Ok_loop_fill (fun i => v.at (start + i)) ?_ ?_
      · intro i y _ h2 hsz _ _
        simp only [Ok_bind, Ok_rdI, Ok_wr]
        refine ⟨by omega, by omega, by omega, ?_⟩
        unfold AVec.at
        rw [show start - v.off - v.base + (i : ℤ) = start + i - v.off - v.base by omega]
      · intro y hsz hg ho'
        rw [Ok_pure, if_pos ⟨hval', hc⟩]
        refine ⟨rfl, hsz, fun i => ?_⟩
        split
        · next h => exact hg i (Nat.zero_le _) h
        · next h => exact ho' i (by omega)
    · rw [if_pos (by omega), Ok_some, if_neg (fun h => hc h.2)]; exact ⟨rfl, rfl⟩
  · have hval' := hval
    unfold AVec.Valid at hval
    rw [if_pos (by omega), Ok_some, if_neg (fun h => hval' h.1)]; exact ⟨rfl, rfl⟩

theorem avecSetLoop_cons [Add R] (flag : ℤ) (v : AVec R) (u : ℤ) (a : R) (l : List (ℤ × R)) (k : ℤ)
    (hk : (if v.origin then (if flag = 0 then u - 1 else u + 1) else u) = k) (h1 : v.base ≤ k) (h2 : k < v.ie)
    (h3 : (k - v.base).toNat < v.value.size) :
    avecSetLoop flag v ((u, a) :: l) = avecSetLoop flag { v with
      value := (v.value.set (k - v.base).toNat (if flag = 0 then a else v.value.get (k - v.base).toNat + a)) } l := by
  rw [avecSetLoop]
  simp only [hk]
  rw [if_neg (by omega)]
  have h0 : 0 ≤ k - v.base := by omega
  simp only [Arr.wrI, Arr.wr, Arr.rdI, Arr.rd, if_pos h0, if_pos h3]
  split <;> rfl

theorem avecSetLoop_eq_calls [Add R] (junk : ℕ → R) (flag : ℤ) (l : List (ℤ × R)) (v : AVec R) (hv : v.Ready)
    (hf : v.origin = false ∨ flag = 0) (hl : ∀ p ∈ l, v.Valid p.1) :
    Ok (avecSetCalls junk (l.map fun p => (flag, p.1, p.2)) v) fun r => avecSetLoop flag v l = some (.success, r.2) := by
  induction l generalizing v with
  | nil => simp [avecSetCalls, avecSetLoop]
  | cons p l ih =>
    obtain ⟨u, a⟩ := p
    have hval : v.Valid u := hl (u, a) (by simp)
    simp only [List.map_cons, avecSetCalls, Ok_bind, Ok_pure]
    have hs := avecSetValue_spec junk v hv (flag, u, a)
    obtain ⟨h1, h2, h3⟩ := hv
    have hi : (if v.origin then u - 1 else u) = u - v.off := by unfold AVec.off; split <;> omega
    have hi' : (if v.origin then (if flag = 0 then u - 1 else u + 1) else u) = u - v.off := by
      unfold AVec.off
      rcases hf with hf | hf
      · simp [hf]
      · simp only [hf, if_true]; split <;> omega
    have hval' := hval
    unfold AVec.Valid at hval
    have hidx : 0 ≤ u - v.off - v.base := by omega
    have hidx' : (u - v.off - v.base).toNat < v.value.size := by omega
    refine (hs.conj (Q := fun r => ∃ b, r = (.success, { v with value := b }) ∧
      avecSetLoop flag v ((u, a) :: l) = avecSetLoop flag { v with value := b } l) ?_).mono ?_
    · unfold avecSetValue
      rw [avecSetLoop_cons flag v u a l _ hi' (by omega) (by omega) hidx']
      simp only [hi, h2, Bool.false_eq_true, if_false]
      rw [if_neg (by omega)]
      simp only [Arr.wrI, Arr.wr, Arr.rdI, Arr.rd, if_pos hidx, if_pos hidx']
      by_cases h0 : flag = 0
      · rw [if_pos h0, if_pos h0]
        exact ⟨_, rfl, _, rfl, rfl⟩
      · rw [if_neg h0, if_neg h0]
        exact ⟨_, rfl, _, rfl, rfl⟩
    · rintro r ⟨⟨g1, g2, g3, g4, g5, g6⟩, b, rfl, e⟩
      simp only at g3 g4 ⊢
      refine (ih _ g3 hf (fun q hq => ?_)).mono ?_
      · rw [g4]; exact hl q (by simp [hq])
      · rintro ⟨es, w⟩ hw
        rw [e]; exact hw

/-- **C19, set_values.** When every index is valid, and either the origin is 0 or values are inserted,
`lis_vector_set_values` does what the corresponding sequence of `lis_vector_set_value` calls does. -/
theorem avecSetValues_spec [Add R] (junk : ℕ → R) (flag : ℤ) (l : List (ℤ × R)) (v : AVec R) (hv : v.Ready)
    (hf : v.origin = false ∨ flag = 0) (hl : ∀ p ∈ l, v.Valid p.1) :
    Ok (avecSetValues junk flag l v) fun r => r.1 = .success ∧ r.2.Ready ∧
      ∀ u, v.Valid u → avecGetValue u r.2 =
        some (.success, some ((l.map fun p => (flag, p.1, p.2)).foldl (setEl v.Valid) v.at u)) := by
  have h1 := avecSetCalls_spec junk (l.map fun p => (flag, p.1, p.2)) v hv
  obtain ⟨r, hr, h2, h3⟩ := h1.conj (avecSetLoop_eq_calls junk flag l v hv hf hl)
  unfold avecSetValues
  rw [hv.alloc, if_neg (by simp), h3, Ok_some]
  exact ⟨rfl, h2.2.1, h2.2.2.2.2⟩

/-- With origin 1 the add branch of `lis_vector_set_values` moves the index the wrong way: it changes the
element two places further on, and rejects the last two valid indices. -/
theorem avecSetValues_add_origin_wrong [Add R] (junk : ℕ → R) (flag : ℤ) (v : AVec R) (hv : v.Ready)
    (ho : v.origin = true) (hf : flag ≠ 0) (u : ℤ) (a : R) :
    (v.Valid u → v.Valid (u + 2) → Ok (avecSetValues junk flag [(u, a)] v) fun r => r.1 = .success ∧
      (∀ w, v.Valid w → r.2.at w = if w = u + 2 then v.at w + a else v.at w)) ∧
    (v.Valid u → ¬ v.Valid (u + 2) → avecSetValues junk flag [(u, a)] v = some (.illArg, v)) := by
  obtain ⟨h1, h2, h3⟩ := hv
  have hoff : v.off = 1 := by simp [AVec.off, ho]
  have hk : (if v.origin then (if flag = 0 then u - 1 else u + 1) else u) = u + 1 := by simp [ho, hf]
  refine ⟨fun hu hu2 => ?_, fun hu hu2 => ?_⟩
  · unfold AVec.Valid at hu hu2
    unfold avecSetValues
    rw [h2, if_neg (by simp), avecSetLoop_cons flag v u a [] _ hk (by omega) (by omega) (by omega)]
    simp only [avecSetLoop, Ok_some]
    refine ⟨trivial, ?_⟩
    intro w hw
    unfold AVec.Valid at hw
    have hat : ∀ b : Arr R, ({ v with value := b } : AVec R).at w = b.get (w - v.off - v.base).toNat := fun _ => rfl
    rw [hat, Arr.set_get, if_neg hf]
    by_cases e : w = u + 2
    · rw [if_pos (by omega), if_pos e]
      rw [show (u + 1 - (v.base : ℤ)).toNat = (w - v.off - (v.base : ℤ)).toNat by omega]; rfl
    · rw [if_neg (by omega), if_neg e]; rfl
  · unfold AVec.Valid at hu hu2
    unfold avecSetValues
    rw [h2, if_neg (by simp), avecSetLoop]
    simp only [hk]
    rw [if_pos (by omega)]

/-- a bad index stops `lis_vector_set_values` with the earlier elements already written -/
theorem avecSetValues_partial_effect :
    ∃ (v v' : AVec ℤ), v.Ready ∧ avecSetValues (fun _ => 0) 0 [(0, 5), (9, 6)] v = some (.illArg, v') ∧
      v'.at 0 = 5 ∧ v.at 0 = 1 :=
  ⟨⟨2, 2, 2, 0, 2, false, false, Arr.ofList [1, 2]⟩, _, ⟨rfl, rfl, by decide⟩, rfl, by decide, by decide⟩

/-- `lis_vector_set_values2` ignores `start`: it always writes from index 0 … -/
theorem avecSetValues2_ignores_start [Add R] (junk : ℕ → R) (flag s s' : ℤ) (l : List R) (v : AVec R) :
    avecSetValues2 junk flag s l v = avecSetValues2 junk flag s' l v := rfl

/-- … and with origin 1 every insertion of at least one value is rejected. -/
theorem avecSetValues2_origin_rejects [Add R] (junk : ℕ → R) (s : ℤ) (a : R) (l : List R) (v : AVec R) (hv : v.Ready)
    (ho : v.origin = true) : avecSetValues2 junk 0 s (a :: l) v = some (.illArg, v) := by
  unfold avecSetValues2
  rw [hv.alloc, if_neg (by simp)]
  simp only [List.zipIdx_cons, List.map_cons, avecSetLoop, ho, if_true]
  rw [if_pos (by left; simp; omega)]

/-- gather after scatter gives back the user's array -/
theorem avecScatter_gather (value out : Arr R) (v : AVec R) (hv : v.Ready) (h1 : v.n ≤ value.size)
    (h2 : v.n ≤ out.size) :
    Ok (avecScatter value v) fun r => r.1 = .success ∧ r.2.Ready ∧
      (∀ i, i < v.n → r.2.value.get i = value.get i) ∧
      Ok (avecGather r.2 out) fun q => q.1 = .success ∧ q.2.size = out.size ∧
        ∀ i, q.2.get i = if i < v.n then value.get i else out.get i := by
  obtain ⟨g1, g2, g3⟩ := hv
  unfold avecScatter avecGather
  rw [Ok_bind]
  refine Ok_loop_fill (fun i => value.get i) ?_ ?_
  · intro i y _ hi hsz _ _
    simp only [Ok_bind, Ok_rd, Ok_wr]; exact ⟨by omega, by omega, trivial⟩
  · intro y hsz hg hg'
    rw [Ok_pure]
    refine ⟨rfl, ⟨g1, g2, by simpa [hsz] using g3⟩, fun i hi => hg i (Nat.zero_le _) hi, ?_⟩
    rw [Ok_bind]
    refine Ok_loop_fill (fun i => value.get i) ?_ ?_
    · intro i z _ hi hsz' _ _
      simp only at hi
      simp only [Ok_bind, Ok_rd, Ok_wr]
      exact ⟨by omega, by omega, by rw [hg i (Nat.zero_le _) hi]⟩
    · intro z hsz' hz hz'
      rw [Ok_pure]
      refine ⟨rfl, hsz', fun i => ?_⟩
      split
      · next h => exact hz i (Nat.zero_le _) h
      · next h => exact hz' i (by simp only; omega)

/-! ### non-vacuity -/

def exAVec : AVec ℤ := ⟨3, 3, 3, 0, 3, true, false, Arr.ofList [0, 0, 0]⟩
example : exAVec.Ready := ⟨rfl, rfl, by decide⟩
example : exAVec.Valid 1 ∧ exAVec.Valid 3 ∧ ¬ exAVec.Valid 0 ∧ ¬ exAVec.Valid 4 := by decide
example : (avecSetCalls (fun _ => 0) [(0, 1, 5), (1, 1, 2), (0, 4, 9), (0, 3, 1)] exAVec).map
    (fun r => (r.1, r.2.value.toList)) = some ([.success, .success, .illArg, .success], [7, 0, 1]) := by decide
example : (avecSetValues (fun _ => 0) 1 [(1, 5)] exAVec).map (fun r => (r.1, r.2.value.toList)) =
    some (.success, [0, 0, 5]) := by decide

end Lis
