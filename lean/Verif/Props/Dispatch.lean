import Verif.Model.Dispatch
import Verif.Props.Array

/-!
# C54: a solver applies the preconditioner it was given

The tables of `psolve` functions are global and creating a preconditioner changes them.  When is the function a solver calls
the one that belongs to its preconditioner?
-/

namespace Lis

/-! ### Specification -/

/-- the preconditioner the options ask for (the documented meaning of `-p`, `-storage`, `-is_level`): ILU works in the
storage format asked for if that is BSR or VBR, otherwise in the format of the matrix if that is BSR or VBR, otherwise in
CSR; ILUC has a CSR and a BSR version; (I+S) with level 0, or inside the Jacobi, Gauss-Seidel and SOR iterations, is applied
to the matrix, and `psolve` does nothing -/
def POpts.asked (o : POpts) : PKern :=
  match o.precon with
  | 0 => .none
  | 1 => .jacobi
  | 2 => if o.storage = some .bsr then .iluBsr else if o.storage = some .vbr then .iluVbr
      else if o.mtype = .bsr then .iluBsr else if o.mtype = .vbr then .iluVbr else .iluCsr
  | 3 => .ssor
  | 4 => .hybrid
  | 5 => if o.islevel = 0 ∨ (10 ≤ o.nsol ∧ o.nsol ≤ 12) then .none else .is
  | 6 => .sainv
  | 7 => .saamg
  | 8 => if o.storage = some .bsr ∨ o.mtype = .bsr then .ilucBsr else .iluc
  | 9 => .ilut
  | 10 => .bjacobi
  | k => .user (k - 12)

/-- the preconditioner asked for, and if it is a hybrid one that of its inner solver, and so on -/
def POpts.chainN : ℕ → POpts → List POpts
  | 0, _ => []
  | n + 1, o => o :: (if o.precon = 4 then POpts.chainN n o.inner else [])

/-- a hybrid preconditioner inside a hybrid one has an inner solver without preconditioner: the chain has at most three
members -/
def POpts.chain (o : POpts) : List POpts := POpts.chainN 3 o

/-- the calls a correct program makes to apply the preconditioner: each member of the chain is applied by its own function,
wrapped in the additive Schwarz function if `-adds` is given -/
def POpts.calls (o : POpts) : List (PKern × PKern) :=
  o.chain.flatMap fun l =>
    if l.precon ≠ 0 ∧ l.adds = true then [(.adds, .adds), (l.asked, l.asked)] else [(l.asked, l.asked)]

/-! ### Proofs -/

theorem POpts.chainN_fuel (o : POpts) (n : ℕ) : POpts.chainN (3 + n) o = o.chain := by
  rw [POpts.chain, show 3 + n = n + 3 by omega]
  simp only [POpts.chainN, POpts.inner, OfNat.zero_ne_ofNat, if_false]

/-- three nested calls are enough -/
theorem createAt_fuel (reg : ℕ) (e : PEnv) (n d : ℕ) (o : POpts) (t : PTables) :
    createAt reg e (3 + n) d o t = createAt reg e 3 d o t := by
  have h0 : ∀ m d' (o' : POpts) (i : PTables → Option (PTables × Option PObj)) ok t, o'.precon ≠ 4 →
      createXxx (createAt reg e m d' o'.inner) o' ok t = createXxx i o' ok t := by
    intro m d' o' i ok t ho
    unfold createXxx
    split <;> first | rfl | (exfalso; omega)
  have h1 : ∀ m m' d' (o' : POpts) t, o'.precon ≠ 4 →
      createAt reg e (m + 1) d' o' t = createAt reg e (m' + 1) d' o' t := by
    intro m m' d' o' t ho
    simp only [createAt]
    rw [h0 m (d' + 1) o' (createAt reg e m' (d' + 1) o'.inner) _ _ ho]
  have h2 : ∀ m m' d' (o' : POpts) t, o'.ppre ≠ 4 →
      createAt reg e (m + 2) d' o' t = createAt reg e (m' + 2) d' o' t := by
    intro m m' d' o' t ho
    have : createAt reg e (m + 1) (d' + 1) o'.inner = createAt reg e (m' + 1) (d' + 1) o'.inner :=
      funext fun t => h1 m m' _ _ t ho
    simp only [createAt] at this ⊢
    rw [this]
  have h3 : createAt reg e (n + 2) (d + 1) o.inner = createAt reg e 2 (d + 1) o.inner :=
    funext fun t => h2 n 0 _ _ t (by simp [POpts.inner])
  rw [show 3 + n = (n + 2) + 1 by omega]
  simp only [createAt] at h3 ⊢
  rw [h3]

/-- both tables have twelve entries -/
def PTables.Sized (t : PTables) : Prop := t.ps.size = 12 ∧ t.psh.size = 12

/-- how a call of `lis_precon_create` for the chain `c` may change the tables -/
def TabTouched (c : List POpts) (t t' : PTables) : Prop :=
  (∀ k, t'.ps.get k = t.ps.get k ∨ ∃ l ∈ c, l.asked ≠ .iluc ∧ l.precon < 11 ∧ l.precon = k ∧ t'.ps.get k = l.asked) ∧
  (∀ k, t'.psh.get k = t.psh.get k ∨ ∃ l ∈ c, (l.asked ≠ .iluVbr ∧ l.asked ≠ .ilucBsr) ∧ l.precon < 11 ∧ l.precon = k ∧
    t'.psh.get k = l.asked)

/-- the entries that a successful call has set -/
def Stored (c : List POpts) (t : PTables) : Prop :=
  ∀ l ∈ c, (l.precon = 2 ∨ l.precon = 5 → t.ps.get l.precon = l.asked) ∧
    (l.precon = 8 → l.asked = .ilucBsr → t.ps.get 8 = .ilucBsr) ∧
    (l.precon = 2 → l.asked ≠ .iluVbr → t.psh.get 2 = l.asked) ∧
    (l.precon = 5 → t.psh.get 5 = l.asked)

/-- the object built for one member of the chain -/
def POpts.layer (l : POpts) : PLayer :=
  ⟨if l.precon < 12 ∧ l.precon ≠ 0 ∧ l.adds = true then 11 else l.precon, l.precon, l.asked⟩

theorem TabTouched.refl (c : List POpts) (t : PTables) : TabTouched c t t := ⟨fun _ => .inl rfl, fun _ => .inl rfl⟩

theorem TabTouched.mono {c c' : List POpts} {t t' : PTables} (h : TabTouched c t t') (hc : ∀ l ∈ c, l ∈ c') :
    TabTouched c' t t' :=
  ⟨fun k => (h.1 k).imp id fun ⟨l, h1, h2⟩ => ⟨l, hc l h1, h2⟩,
    fun k => (h.2 k).imp id fun ⟨l, h1, h2⟩ => ⟨l, hc l h1, h2⟩⟩

theorem store_spec {t t' : PTables} {k : ℕ} {f : PKern} (h : t.store k f = some t') :
    t'.ps = t.ps.set k f ∧ t'.psh = t.psh.set k f := by
  unfold PTables.store Arr.wr at h
  split at h <;> simp at h
  split at h <;> simp at h
  subst h
  exact ⟨rfl, rfl⟩

theorem wr_some {α : Type} {a b : Arr α} {k : ℕ} {f : α} (h : a.wr k f = some b) : b = a.set k f := by
  unfold Arr.wr at h
  split at h <;> simp at h
  exact h.symm

/-- what one creator other than the hybrid one does -/
def LeafSpec (o : POpts) (t : PTables) (r : PTables × Option PKern) : Prop :=
  (t.Sized → r.1.Sized) ∧ TabTouched [o] t r.1 ∧ ∀ k, r.2 = some k → k = o.asked ∧ Stored [o] r.1

theorem leaf_store {o : POpts} {t t' : PTables} {k : ℕ} {f : PKern} {q : Option PKern} (hk : o.precon = k) (hk' : k < 11)
    (hf : o.asked = f) (h8 : k ≠ 8) (hf' : (f ≠ .iluVbr ∧ f ≠ .ilucBsr) ∧ f ≠ .iluc) (h : t.store k f = some t') (hq : ∀ g, q = some g → g = f) : LeafSpec o t (t', q) := by
  obtain ⟨h1, h2⟩ := store_spec h
  refine ⟨fun hs => by simp [PTables.Sized, h1, h2, Arr.set]; exact hs, ⟨fun i => ?_, fun i => ?_⟩, ?_⟩
  · rcases Decidable.em (i = k) with rfl | hi
    · exact .inr ⟨o, by simp, by rw [hf]; exact hf'.2, by omega, hk, by simp [h1, Arr.set, hf]⟩
    · exact .inl (by simp [h1, Arr.set, hi])
  · rcases Decidable.em (i = k) with rfl | hi
    · exact .inr ⟨o, by simp, by rw [hf]; exact hf'.1, by omega, hk, by simp [h2, Arr.set, hf]⟩
    · exact .inl (by simp [h2, Arr.set, hi])
  · intro g hg
    refine ⟨(hq g hg).trans hf.symm, ?_⟩
    intro l hl
    obtain rfl : l = o := by simpa using hl
    refine ⟨fun _ => by simp [h1, Arr.set, hk, hf], fun h => by omega, fun h _ => ?_, fun h => ?_⟩
    · simp [h2, Arr.set, ← hk, h, hf]
    · simp [h2, Arr.set, ← hk, h, hf]

theorem createIluk_spec {o : POpts} {ok : Bool} {t : PTables} {r : PTables × Option PKern} (ho : o.precon = 2)
    (h : createIluk o ok t = some r) : LeafSpec o t r := by
  unfold createIluk at h
  cases ok with
  | false =>
    simp at h
    subst h
    exact ⟨id, TabTouched.refl _ _, by simp⟩
  | true =>
    have ha : ∀ m, o.iluFmt = m → o.asked = match m with
        | .csr => .iluCsr
        | .bsr => .iluBsr
        | .vbr => .iluVbr
        | .other => .iluCsr := by
      rintro _ rfl
      unfold POpts.asked POpts.iluFmt
      rw [ho]
      rcases hs : o.storage with _ | s
      · cases hmt : o.mtype <;> simp
      · cases s <;> cases hmt : o.mtype <;> simp
    rw [if_pos rfl] at h
    cases hm : o.iluFmt <;> have ha := ha _ hm <;> rw [hm] at h
    case csr =>
      simp [Option.bind_eq_some_iff] at h
      obtain ⟨t', h1, rfl⟩ := h
      exact leaf_store ho (by omega) ha (by omega) (by simp) h1 (by simp)
    case bsr =>
      simp [Option.bind_eq_some_iff] at h
      obtain ⟨t', h1, rfl⟩ := h
      exact leaf_store ho (by omega) ha (by omega) (by simp) h1 (by simp)
    case other =>
      simp [Option.bind_eq_some_iff] at h
      obtain ⟨t', h1, rfl⟩ := h
      exact leaf_store ho (by omega) ha (by omega) (by simp) h1 (by simp)
    case vbr =>
      simp [Option.bind_eq_some_iff] at h
      obtain ⟨ps, h1, rfl⟩ := h
      have h1 := wr_some h1
      simp only at ha
      refine ⟨fun hs => by simp [PTables.Sized, h1, Arr.set]; exact hs, ⟨fun i => ?_, fun i => .inl rfl⟩, ?_⟩
      · rcases Decidable.em (i = 2) with rfl | hi
        · exact .inr ⟨o, by simp, by simp [ha], by omega, ho, by simp [h1, Arr.set, ha]⟩
        · exact .inl (by simp [h1, Arr.set, hi])
      · intro g hg
        simp at hg
        refine ⟨hg.symm.trans ha.symm, ?_⟩
        intro l hl
        obtain rfl : l = o := by simpa using hl
        exact ⟨fun _ => by simp [h1, Arr.set, ho, ha], fun h => by omega, fun _ h => absurd ha h, fun h => by omega⟩

theorem createIs_spec {o : POpts} {ok : Bool} {t : PTables} {r : PTables × Option PKern} (ho : o.precon = 5)
    (h : createIs o ok t = some r) : LeafSpec o t r := by
  unfold createIs at h
  split at h <;> rename_i hc
  · have ha : o.asked = .is := by
      simp only [POpts.asked, ho]
      rw [if_neg (by omega)]
    simp [Option.bind_eq_some_iff] at h
    obtain ⟨t', h1, rfl⟩ := h
    exact leaf_store ho (by omega) ha (by omega) (by simp) h1 (by cases ok <;> simp)
  · have ha : o.asked = .none := by
      simp only [POpts.asked, ho]
      rw [if_pos (by omega)]
    simp [Option.bind_eq_some_iff] at h
    obtain ⟨t', h1, rfl⟩ := h
    exact leaf_store ho (by omega) ha (by omega) (by simp) h1 (by cases ok <;> simp)

theorem createIlut_spec {o : POpts} {ok : Bool} {t : PTables} {r : PTables × Option PKern} (ho : o.precon = 9)
    (h : createIlut ok t = some r) : LeafSpec o t r := by
  unfold createIlut at h
  cases ok with
  | false =>
    simp at h
    subst h
    exact ⟨id, TabTouched.refl _ _, by simp⟩
  | true =>
    simp [Option.bind_eq_some_iff] at h
    obtain ⟨t', h1, rfl⟩ := h
    exact leaf_store ho (by omega) (by simp [POpts.asked, ho]) (by omega) (by simp) h1 (by simp)

theorem createPlain_spec {o : POpts} {ok : Bool} {t : PTables} {k : PKern} {r : PTables × Option PKern} (ha : o.asked = k)
    (ho : o.precon ≠ 2 ∧ o.precon ≠ 5 ∧ o.precon ≠ 8) (h : createPlain k ok t = some r) : LeafSpec o t r := by
  unfold createPlain at h
  simp at h
  subst h
  refine ⟨id, TabTouched.refl _ _, ?_⟩
  intro g hg
  refine ⟨by cases ok <;> simp at hg; rw [← hg, ha], ?_⟩
  intro l hl
  obtain rfl : l = o := by simpa using hl
  exact ⟨fun h => by omega, fun h => by omega, fun h => by omega, fun h => by omega⟩

theorem createIluc_spec {o : POpts} {ok : Bool} {t : PTables} {r : PTables × Option PKern} (ho : o.precon = 8)
    (h : createIluc o ok t = some r) : LeafSpec o t r := by
  unfold createIluc at h
  cases ok with
  | false =>
    simp at h
    subst h
    exact ⟨id, TabTouched.refl _ _, by simp⟩
  | true =>
    have ha : ∀ m, o.ilucFmt = m → o.asked = if m = .bsr then .ilucBsr else .iluc := by
      rintro _ rfl
      unfold POpts.asked POpts.ilucFmt
      rw [ho]
      rcases hs : o.storage with _ | s
      · cases hmt : o.mtype <;> simp
      · cases s <;> cases hmt : o.mtype <;> simp
    rw [if_pos rfl] at h
    obtain ⟨m, hm⟩ : ∃ m, o.ilucFmt = m := ⟨_, rfl⟩
    have ha := ha m hm
    rw [hm] at h
    rcases Decidable.em (m = .bsr) with hb | hb
    · rw [hb] at h ha
      simp [Option.bind_eq_some_iff] at h ha
      obtain ⟨ps, h1, rfl⟩ := h
      have h1 := wr_some h1
      refine ⟨fun hs => by simp [PTables.Sized, h1, Arr.set]; exact hs, ⟨fun i => ?_, fun i => .inl rfl⟩, ?_⟩
      · rcases Decidable.em (i = 8) with rfl | hi
        · exact .inr ⟨o, by simp, by simp [ha], by omega, ho, by simp [h1, Arr.set, ha]⟩
        · exact .inl (by simp [h1, Arr.set, hi])
      · intro g hg
        simp at hg
        refine ⟨hg.symm.trans ha.symm, ?_⟩
        intro l hl
        obtain rfl : l = o := by simpa using hl
        exact ⟨fun h => by omega, fun _ _ => by simp [h1, Arr.set], fun h => by omega, fun h => by omega⟩
    · have h' : r = (t, some .iluc) := by
        cases m <;> simp at h hb <;> exact h.symm
      subst h'
      rw [if_neg hb] at ha
      refine ⟨id, TabTouched.refl _ _, ?_⟩
      intro g hg
      simp at hg
      refine ⟨hg.symm.trans ha.symm, ?_⟩
      intro l hl
      obtain rfl : l = o := by simpa using hl
      exact ⟨fun h => by omega, fun _ h => by rw [ha] at h; simp at h, fun h => by omega, fun h => by omega⟩

/-- what a call of `lis_precon_create` does -/
def CreateSpec (c : List POpts) (t : PTables) (r : PTables × Option PObj) : Prop :=
  (t.Sized → r.1.Sized) ∧ TabTouched c t r.1 ∧
    ∀ p, r.2 = some p → p = c.map POpts.layer ∧ Stored c r.1

theorem createXxx_spec {inner : PTables → Option (PTables × Option PObj)} {n : ℕ} {o : POpts} {ok : Bool} {t : PTables}
    {r : PTables × Option (PKern × PObj)} (hi : ∀ t r, inner t = some r → CreateSpec (POpts.chainN n o.inner) t r)
    (h : createXxx inner o ok t = some r) :
    o.precon < 11 ∧ (t.Sized → r.1.Sized) ∧ TabTouched (POpts.chainN (n + 1) o) t r.1 ∧
      ∀ q, r.2 = some q → q.1 = o.asked ∧ o.layer :: q.2 = (POpts.chainN (n + 1) o).map POpts.layer ∧
        Stored (POpts.chainN (n + 1) o) r.1 := by
  have key : ∀ m : Option (PTables × Option PKern), o.precon < 11 → o.precon ≠ 4 → (∀ x, m = some x → LeafSpec o t x) →
      (m.map fun q => (q.1, q.2.map fun k => (k, ([] : PObj)))) = some r →
      o.precon < 11 ∧ (t.Sized → r.1.Sized) ∧ TabTouched (POpts.chainN (n + 1) o) t r.1 ∧
      ∀ q, r.2 = some q → q.1 = o.asked ∧ o.layer :: q.2 = (POpts.chainN (n + 1) o).map POpts.layer ∧
        Stored (POpts.chainN (n + 1) o) r.1 := by
    intro m h11 h4 hm hr
    have hc : POpts.chainN (n + 1) o = [o] := by simp [POpts.chainN, h4]
    rw [hc]
    cases m with
    | none => simp at hr
    | some x =>
      obtain ⟨g1, g2, g3⟩ := hm x rfl
      simp at hr
      subst hr
      refine ⟨h11, g1, g2, ?_⟩
      intro q hq
      simp at hq
      obtain ⟨k, hk, rfl⟩ := hq
      exact ⟨(g3 k hk).1, by simp, (g3 k hk).2⟩
  unfold createXxx at h
  split at h <;> rename_i ho
  · exact key _ (by omega) (by omega) (fun x hx => createPlain_spec (by simp [POpts.asked, ho]) (by omega) hx) h
  · exact key _ (by omega) (by omega) (fun x hx => createPlain_spec (by simp [POpts.asked, ho]) (by omega) hx) h
  · exact key _ (by omega) (by omega) (fun x hx => createIluk_spec ho hx) h
  · exact key _ (by omega) (by omega) (fun x hx => createPlain_spec (by simp [POpts.asked, ho]) (by omega) hx) h
  · have hc : POpts.chainN (n + 1) o = o :: POpts.chainN n o.inner := by simp [POpts.chainN, ho]
    simp only [Option.bind_eq_bind, Option.bind_eq_some_iff, Prod.exists] at h
    obtain ⟨t1, p, h1, h2⟩ := h
    obtain ⟨g1, g2, g3⟩ := hi _ _ h1
    rw [hc]
    have ht : r.1 = t1 := by
      cases p <;> simp at h2 <;> rw [← h2]
    refine ⟨by omega, by rw [ht]; exact g1, by rw [ht]; exact g2.mono (by simp +contextual), ?_⟩
    intro q hq
    cases p with
    | none =>
      simp at h2
      rw [← h2] at hq
      simp at hq
    | some p =>
      simp at h2
      rw [← h2] at hq
      simp at hq
      obtain ⟨_, rfl⟩ := hq
      obtain ⟨g4, g5⟩ := g3 p rfl
      refine ⟨by simp [POpts.asked, ho], by simp [g4], ?_⟩
      intro l hl
      rcases List.mem_cons.1 hl with rfl | hl
      · exact ⟨fun h => by omega, fun h => by omega, fun h => by omega, fun h => by omega⟩
      · rw [ht]
        exact g5 l hl
  · exact key _ (by omega) (by omega) (fun x hx => createIs_spec ho hx) h
  · exact key _ (by omega) (by omega) (fun x hx => createPlain_spec (by simp [POpts.asked, ho]) (by omega) hx) h
  · exact key _ (by omega) (by omega) (fun x hx => createPlain_spec (by simp [POpts.asked, ho]) (by omega) hx) h
  · exact key _ (by omega) (by omega) (fun x hx => createIluc_spec ho hx) h
  · exact key _ (by omega) (by omega) (fun x hx => createIlut_spec ho hx) h
  · exact key _ (by omega) (by omega) (fun x hx => createPlain_spec (by simp [POpts.asked, ho]) (by omega) hx) h
  · simp at h

theorem createAt_spec (reg : ℕ) (e : PEnv) (fuel : ℕ) : ∀ (d : ℕ) (o : POpts) (t : PTables) (r : PTables × Option PObj),
    createAt reg e fuel d o t = some r → CreateSpec (POpts.chainN fuel o) t r := by
  induction fuel with
  | zero => intro d o t r h; simp [createAt] at h
  | succ n ih =>
    intro d o t r h
    have hx : ∀ t x, createXxx (createAt reg e n (d + 1) o.inner) o (e.ok d) t = some x → _ :=
      fun t x hx => createXxx_spec (n := n) (fun t r h => ih _ _ t r h) hx
    unfold createAt at h
    simp only at h
    split at h <;> rename_i h12
    · have hc : POpts.chainN (n + 1) o = [o] := by
        rw [POpts.chainN, if_neg (by omega)]
      split at h <;> simp at h
      subst h
      rw [hc]
      refine ⟨id, TabTouched.refl _ _, ?_⟩
      intro p hp
      simp at hp
      obtain ⟨_, rfl⟩ := hp
      refine ⟨?_, ?_⟩
      · have : o.asked = .user (o.precon - 12) := by
          unfold POpts.asked
          split <;> first | (exfalso; omega) | rfl
        simp [POpts.layer, this, show ¬ o.precon < 12 by omega]
      · intro l hl
        obtain rfl : l = o := by simpa using hl
        exact ⟨fun h => by omega, fun h => by omega, fun h => by omega, fun h => by omega⟩
    · split at h <;> rename_i had
      · split at h
        · simp only [Option.bind_eq_bind, Option.bind_eq_some_iff, Prod.exists, Option.pure_def, Option.some.injEq] at h
          obtain ⟨t1, q, h1, rfl⟩ := h
          obtain ⟨_, g1, g2, g3⟩ := hx _ _ h1
          refine ⟨g1, g2, ?_⟩
          intro p hp
          simp at hp
          obtain ⟨a, b, hq, rfl⟩ := hp
          obtain ⟨f1, f2, f3⟩ := g3 _ hq
          refine ⟨?_, f3⟩
          rw [← f2]
          simp only at f1
          rw [POpts.layer, if_pos ⟨by omega, had⟩, f1]
        · simp at h
          subst h
          exact ⟨id, TabTouched.refl _ _, by simp⟩
      · simp only [Option.bind_eq_bind, Option.bind_eq_some_iff, Prod.exists, Option.pure_def, Option.some.injEq] at h
        obtain ⟨t1, q, h1, rfl⟩ := h
        obtain ⟨_, g1, g2, g3⟩ := hx _ _ h1
        refine ⟨g1, g2, ?_⟩
        intro p hp
        simp at hp
        obtain ⟨a, b, hq, rfl⟩ := hp
        obtain ⟨f1, f2, f3⟩ := g3 _ hq
        refine ⟨?_, f3⟩
        rw [← f2]
        simp only at f1
        rw [POpts.layer, if_neg (by rintro ⟨_, h⟩; exact had h), f1]

/-- the members of the chains of a program -/
def chains (l : List (POpts × PEnv)) : List POpts := l.flatMap fun q => q.1.chain

theorem createAll_touched (reg : ℕ) : ∀ (l : List (POpts × PEnv)) (t t' : PTables), createAll reg l t = some t' →
    (t.Sized → t'.Sized) ∧ TabTouched (chains l) t t' := by
  intro l
  induction l with
  | nil =>
    intro t t' h
    simp [createAll] at h
    subst h
    exact ⟨id, TabTouched.refl _ _⟩
  | cons q l ih =>
    intro t t' h
    obtain ⟨o, e⟩ := q
    simp only [createAll, Option.bind_eq_some_iff] at h
    obtain ⟨r, h1, h2⟩ := h
    obtain ⟨g1, g2, _⟩ := createAt_spec _ _ _ _ _ _ _ h1
    obtain ⟨f1, f2⟩ := ih _ _ h2
    have ha : ∀ x ∈ chains l, x ∈ chains ((o, e) :: l) := fun x hx => by
      simp only [chains, List.flatMap_cons, List.mem_append]; exact .inr hx
    have hb : ∀ x ∈ POpts.chainN 3 o, x ∈ chains ((o, e) :: l) := fun x hx => by
      simp only [chains, List.flatMap_cons, List.mem_append]; exact .inl hx
    refine ⟨fun h => f1 (g1 h), fun k => ?_, fun k => ?_⟩
    · rcases f2.1 k with h | ⟨x, hx, h3⟩
      · rcases g2.1 k with h' | ⟨x, hx, h4, h5, h6, h7⟩
        · exact .inl (h.trans h')
        · exact .inr ⟨x, hb x hx, h4, h5, h6, h.trans h7⟩
      · exact .inr ⟨x, ha x hx, h3⟩
    · rcases f2.2 k with h | ⟨x, hx, h3⟩
      · rcases g2.2 k with h' | ⟨x, hx, h4, h5, h6, h7⟩
        · exact .inl (h.trans h')
        · exact .inr ⟨x, hb x hx, h4, h5, h6, h.trans h7⟩
      · exact .inr ⟨x, ha x hx, h3⟩

/-- an entry that is never changed: a creator of type `k` other than 2, 5 and 8 stores what is there already -/
theorem asked_fixed {l : POpts} (hl : l.precon < 11) (h : l.precon ≠ 2 ∧ l.precon ≠ 5 ∧ l.precon ≠ 8) :
    l.asked = PTables.init.ps.get l.precon ∧ l.asked = PTables.init.psh.get l.precon := by
  obtain ⟨k, hk⟩ : ∃ k, l.precon = k := ⟨_, rfl⟩
  unfold POpts.asked
  rw [hk] at hl h ⊢
  have : k = 0 ∨ k = 1 ∨ k = 3 ∨ k = 4 ∨ k = 6 ∨ k = 7 ∨ k = 9 ∨ k = 10 := by omega
  rcases this with rfl | rfl | rfl | rfl | rfl | rfl | rfl | rfl <;> exact ⟨rfl, rfl⟩

theorem PObj.calls_of {tab : Arr PKern} (hs : tab.size = 12) (h11 : tab.get 11 = .adds) : ∀ (c : List POpts),
    (∀ l ∈ c, l.precon < 12 ∧ tab.get l.precon = l.asked) → (∀ l ∈ c, l.precon ≠ 11) →
    PObj.calls tab (c.map POpts.layer) = some (c.flatMap fun l =>
      if l.precon ≠ 0 ∧ l.adds = true then [(.adds, .adds), (l.asked, l.asked)] else [(l.asked, l.asked)]) := by
  intro c
  induction c with
  | nil => intro _ _; rfl
  | cons l c ih =>
    intro h hn
    have ihc := ih (fun l hl => h l (by simp [hl])) (fun l hl => hn l (by simp [hl]))
    obtain ⟨h1, h2⟩ := h l (by simp)
    have h3 := hn l (by simp)
    have hr : ∀ k, k < 12 → tab.rd k = some (tab.get k) := fun k hk => by
      unfold Arr.rd
      rw [if_pos (by omega)]
    simp only [List.map_cons, PObj.calls, List.flatMap_cons]
    rw [ihc]
    unfold PLayer.calls POpts.layer
    simp only
    rcases Decidable.em (l.precon ≠ 0 ∧ l.adds = true) with ha | ha
    · rw [if_pos ⟨h1, ha⟩, hr 11 (by omega), hr _ h1, h2, h11, if_pos ha]
      rfl
    · rw [if_neg (by rintro ⟨_, h⟩; exact ha h), hr _ h1, h2, if_neg ha]
      simp [h3]

/-- `lis_precon_create_xxx[11]` is out of bounds -/
theorem createAt_ne_adds (reg : ℕ) (e : PEnv) : ∀ fuel d (o : POpts) t t' p, createAt reg e fuel d o t = some (t', some p) →
    ∀ l ∈ POpts.chainN fuel o, l.precon ≠ 11 := by
  intro fuel
  induction fuel with
  | zero => intro d o t t' p h; simp [createAt] at h
  | succ n ih =>
    intro d o t t' p h l hl
    have hx : ∀ t t' q, createXxx (createAt reg e n (d + 1) o.inner) o (e.ok d) t = some (t', some q) →
        l.precon ≠ 11 := by
      intro t t' q hq
      have hlt := (createXxx_spec (n := n) (fun t r h => createAt_spec reg e n _ _ t r h) hq).1
      rcases List.mem_cons.1 hl with rfl | hl
      · omega
      · split at hl <;> rename_i h4
        · simp only [createXxx, h4] at hq
          simp only [Option.bind_eq_bind, Option.bind_eq_some_iff, Prod.exists] at hq
          obtain ⟨t3, p3, h3, h5⟩ := hq
          cases p3 with
          | none => simp at h5
          | some p3 => exact ih _ _ _ _ _ h3 l hl
        · simp at hl
    unfold createAt at h
    simp only at h
    split at h <;> rename_i h12
    · have hc : POpts.chainN (n + 1) o = [o] := by
        rw [POpts.chainN, if_neg (by omega)]
      rw [hc] at hl
      obtain rfl : l = o := by simpa using hl
      omega
    · split at h
      · split at h
        · simp only [Option.bind_eq_bind, Option.bind_eq_some_iff, Prod.exists, Option.pure_def, Option.some.injEq,
            Prod.mk.injEq] at h
          obtain ⟨t3, q, h3, rfl, h5⟩ := h
          simp at h5
          obtain ⟨a, b, rfl, _⟩ := h5
          exact hx _ _ _ h3
        · simp at h
      · simp only [Option.bind_eq_bind, Option.bind_eq_some_iff, Prod.exists, Option.pure_def, Option.some.injEq,
          Prod.mk.injEq] at h
        obtain ⟨t3, q, h3, rfl, h5⟩ := h
        simp at h5
        obtain ⟨a, b, rfl, _⟩ := h5
        exact hx _ _ _ h3

/-- at most one member of a chain is an ILUC preconditioner -/
theorem chainN_iluc : ∀ n (o : POpts) (a b : POpts), a ∈ POpts.chainN n o → b ∈ POpts.chainN n o → a.precon = 8 →
    b.precon = 8 → a = b := by
  intro n
  induction n with
  | zero => intro o a b h; simp [POpts.chainN] at h
  | succ n ih =>
    intro o a b ha hb a8 b8
    simp only [POpts.chainN, List.mem_cons] at ha hb
    split at ha <;> rename_i h4
    · rw [if_pos h4] at hb
      rcases ha with rfl | ha
      · omega
      · rcases hb with rfl | hb
        · omega
        · exact ih _ a b ha hb a8 b8
    · rw [if_neg h4] at hb
      simp at ha hb
      rw [ha, hb]

/-! ### Theorems -/

/-- **C54.** Take a program that creates preconditioners in any order, `pre` before, then the one asked for by `o`, then
`post`, all of them still alive.  The solver that owns the one in the middle makes the calls a correct program makes, if
(1) no preconditioner created later is of the same type but of another kind (ILU of another storage format, (I+S) of another
level, ILUC of another format), and (2) a CSR ILUC preconditioner is not preceded by a BSR one. Nothing else in the program
matters: other types, failing calls, hybrids within hybrids. -/
theorem precon_applied {reg : ℕ} {pre post : List (POpts × PEnv)} {o : POpts} {e : PEnv} {t t1 t2 : PTables} {p : PObj}
    (h0 : createAll reg pre PTables.init = some t) (h1 : createPrecon reg e o t = some (t1, some p))
    (h2 : createAll reg post t1 = some t2)
    (hu : ∀ l ∈ o.chain, l.precon < 12)
    (hpost : ∀ l ∈ o.chain, ∀ l' ∈ chains post, l'.precon = l.precon → l'.asked = l.asked)
    (hpre : ∀ l ∈ o.chain, l.precon = 8 → l.asked = .iluc → ∀ l' ∈ chains pre, l'.precon = 8 → l'.asked = .iluc) :
    p.calls t2.ps = some o.calls := by
  obtain ⟨s0, a0⟩ := createAll_touched _ _ _ _ h0
  obtain ⟨s1, a1, b1⟩ := createAt_spec _ _ _ _ _ _ _ h1
  obtain ⟨s2, a2⟩ := createAll_touched _ _ _ _ h2
  obtain ⟨rfl, b2⟩ := b1 p rfl
  have hi : PTables.init.Sized := ⟨rfl, rfl⟩
  have hsz := s2 (s1 (s0 hi))
  simp only at a1 b2 a2
  have h11' : ∀ l ∈ o.chain, l.precon ≠ 11 := by
    exact createAt_ne_adds _ _ _ _ _ _ _ _ h1
  -- an entry other than 2, 5, 8 is what it was at the start
  have hfix : ∀ k, k < 12 → k ≠ 2 → k ≠ 5 → k ≠ 8 → t2.ps.get k = PTables.init.ps.get k := by
    intro k hk k2 k5 k8
    rcases a2.1 k with h | ⟨l, _, _, h3, rfl, h4⟩
    · rcases a1.1 k with h' | ⟨l, _, _, h3, rfl, h4⟩
      · rcases a0.1 k with h'' | ⟨l, _, _, h3, rfl, h4⟩
        · rw [h, h', h'']
        · rw [h, h', h4, (asked_fixed h3 ⟨k2, k5, k8⟩).1]
      · rw [h, h4, (asked_fixed h3 ⟨k2, k5, k8⟩).1]
    · rw [h4, (asked_fixed h3 ⟨k2, k5, k8⟩).1]
  refine PObj.calls_of hsz.1 (hfix 11 (by omega) (by omega) (by omega) (by omega)) _ ?_ h11'
  intro l hl
  have hl12 := hu l hl
  have hl11 := h11' l hl
  refine ⟨hl12, ?_⟩
  rcases Decidable.em (l.precon ≠ 2 ∧ l.precon ≠ 5 ∧ l.precon ≠ 8) with hk | hk
  · rw [hfix _ hl12 hk.1 hk.2.1 hk.2.2, (asked_fixed (by omega) hk).1]
  · rcases a2.1 l.precon with h | ⟨l', hl', _, h3, h4, h5⟩
    · rw [h]
      rcases Decidable.em (l.precon = 8) with h8 | h8
      · rcases Decidable.em (l.asked = .ilucBsr) with hb | hb
        · rw [h8, (b2 l hl).2.1 h8 hb, hb]
        · have hic : l.asked = .iluc := by
            simp only [POpts.asked, h8] at hb ⊢
            split at hb <;> simp_all
          rw [h8, hic]
          rcases a1.1 8 with h' | ⟨l', hl', _, h3, h4, h5⟩
          · rcases a0.1 8 with h'' | ⟨l', hl', _, h3, h4, h5⟩
            · rw [h', h'']; rfl
            · rw [h', h5, hpre l hl h8 hic l' hl' h4]
          · -- another member of the same chain: only one is not hybrid
            have : l' = l := chainN_iluc 3 o l' l hl' hl h4 h8
            rw [h5, this, hic]
      · exact (b2 l hl).1 (by omega)
    · rw [h5, hpost l hl l' hl' h4]

/-- the same for `lis_psolveh`, which some solvers call as well: right unless the preconditioner is an ILU in VBR format or
an ILUC in BSR format, and as long as no ILU or (I+S) preconditioner of another kind is created later. -/
theorem preconh_applied {reg : ℕ} {pre post : List (POpts × PEnv)} {o : POpts} {e : PEnv} {t t1 t2 : PTables} {p : PObj}
    (h0 : createAll reg pre PTables.init = some t) (h1 : createPrecon reg e o t = some (t1, some p))
    (h2 : createAll reg post t1 = some t2)
    (hu : ∀ l ∈ o.chain, l.precon < 12)
    (hk : ∀ l ∈ o.chain, l.asked ≠ .iluVbr ∧ l.asked ≠ .ilucBsr)
    (hpost : ∀ l ∈ o.chain, ∀ l' ∈ chains post, l'.precon = l.precon → l'.asked ≠ .iluVbr → l'.asked ≠ .ilucBsr →
      l'.asked = l.asked) :
    p.calls t2.psh = some o.calls := by
  obtain ⟨s0, a0⟩ := createAll_touched _ _ _ _ h0
  obtain ⟨s1, a1, b1⟩ := createAt_spec _ _ _ _ _ _ _ h1
  obtain ⟨s2, a2⟩ := createAll_touched _ _ _ _ h2
  obtain ⟨rfl, b2⟩ := b1 p rfl
  have hi : PTables.init.Sized := ⟨rfl, rfl⟩
  have hsz := s2 (s1 (s0 hi))
  simp only at a1 b2 a2
  have h11' : ∀ l ∈ o.chain, l.precon ≠ 11 := createAt_ne_adds _ _ _ _ _ _ _ _ h1
  have hstay : ∀ l : POpts, l.precon < 11 → (l.precon ≠ 2 ∧ l.precon ≠ 5) → l.asked ≠ .ilucBsr →
      l.asked = PTables.init.psh.get l.precon := by
    intro l hl hn hb
    rcases Decidable.em (l.precon = 8) with h8 | h8
    · simp only [POpts.asked, h8] at hb ⊢
      split at hb <;> simp_all
      rfl
    · exact (asked_fixed hl ⟨hn.1, hn.2, h8⟩).2
  have hfix : ∀ k, k < 12 → k ≠ 2 → k ≠ 5 → t2.psh.get k = PTables.init.psh.get k := by
    intro k hk k2 k5
    rcases a2.2 k with h | ⟨l, _, hv, h3, rfl, h4⟩
    · rcases a1.2 k with h' | ⟨l, _, hv, h3, rfl, h4⟩
      · rcases a0.2 k with h'' | ⟨l, _, hv, h3, rfl, h4⟩
        · rw [h, h', h'']
        · rw [h, h', h4, hstay l h3 ⟨k2, k5⟩ hv.2]
      · rw [h, h4, hstay l h3 ⟨k2, k5⟩ hv.2]
    · rw [h4, hstay l h3 ⟨k2, k5⟩ hv.2]
  refine PObj.calls_of hsz.2 (hfix 11 (by omega) (by omega) (by omega)) _ ?_ h11'
  intro l hl
  have hl12 := hu l hl
  have hl11 := h11' l hl
  refine ⟨hl12, ?_⟩
  rcases Decidable.em (l.precon ≠ 2 ∧ l.precon ≠ 5) with hk' | hk'
  · rw [hfix _ hl12 hk'.1 hk'.2, hstay l (by omega) hk' (hk l hl).2]
  · rcases a2.2 l.precon with h | ⟨l', hl', hv, h3, h4, h5⟩
    · rw [h]
      rcases Decidable.em (l.precon = 2) with h2 | h2
      · rw [h2, (b2 l hl).2.2.1 h2 (hk l hl).1]
      · have h5 : l.precon = 5 := by omega
        rw [h5, (b2 l hl).2.2.2 h5]
    · rw [h5, hpost l hl l' hl' h4 hv.1 hv.2]

/-! ### Findings -/

/-- A preconditioner registered with `lis_precon_register` is never applied: whatever the program has done before, applying
it reads past the end of the twelve entry table, the functions passed to `lis_precon_register` are not called. (`lis_solve`
itself refuses the type with `LIS_ERR_ILL_ARG`; the preconditioner can be created and passed to `lis_solve_kernel`.) -/
theorem user_precon_never_applied {reg : ℕ} {hist : List (POpts × PEnv)} {o : POpts} {e : PEnv} {t t1 : PTables} {p : PObj}
    (h0 : createAll reg hist PTables.init = some t) (h1 : createPrecon reg e o t = some (t1, some p))
    (hu : 12 ≤ o.precon) : p.calls t1.ps = Option.none ∧ p.calls t1.psh = Option.none := by
  obtain ⟨s0, _⟩ := createAll_touched _ _ _ _ h0
  obtain ⟨s1, _, b1⟩ := createAt_spec _ _ _ _ _ _ _ h1
  have hi : PTables.init.Sized := ⟨rfl, rfl⟩
  obtain ⟨z1, z2⟩ := s1 (s0 hi)
  simp only at z1 z2
  have hp : p = [⟨o.precon, o.precon, .user (o.precon - 12)⟩] := by
    simp only [createPrecon, createAt, if_pos hu] at h1
    split at h1 <;> simp at h1
    exact h1.2.2.symm
  subst hp
  constructor <;> simp [PObj.calls, PLayer.calls, Arr.rd, z1, z2, show ¬ o.precon < 12 by omega]

/-- an environment in which nothing fails -/
def goodEnv : PEnv := ⟨fun _ => true, fun _ => true⟩

/-- `-i bicg -p ilu` on a CSR matrix, and variations -/
def demoPOpts : POpts where
  precon := 2
  adds := false
  storage := Option.none
  islevel := 1
  nsol := 2
  psol := 12
  ppre := 0
  mtype := .csr

/-- Two solvers with ILU preconditioners, the first for a CSR matrix, the second for a BSR matrix: once the second has been
created the first is applied by the function for BSR. -/
theorem ilu_two_formats : ∃ t1 p t2, createPrecon 0 goodEnv demoPOpts PTables.init = some (t1, some p) ∧
    p.calls t1.ps = some [(.iluCsr, .iluCsr)] ∧
    createAll 0 [({demoPOpts with mtype := .bsr}, goodEnv)] t1 = some t2 ∧ p.calls t2.ps = some [(.iluBsr, .iluCsr)] :=
  ⟨_, _, _, rfl, rfl, rfl, rfl⟩

/-- The same in one solve: `-p hybrid -hybrid_p ilu` in a program that has an ILU preconditioner in another format. -/
theorem ilu_hybrid_two_formats : ∃ t1 p t2, createPrecon 0 goodEnv demoPOpts PTables.init = some (t1, some p) ∧
    createAll 0 [({demoPOpts with precon := 4, ppre := 2, mtype := .bsr}, goodEnv)] t1 = some t2 ∧
    p.calls t2.ps = some [(.iluBsr, .iluCsr)] :=
  ⟨_, _, _, rfl, rfl, rfl⟩

/-- A BSR ILUC preconditioner spoils every later CSR one, also after it has been destroyed and whatever the program does in
between: nothing ever stores `lis_psolve_iluc` again, the CSR factors are passed to the function for BSR. -/
theorem iluc_after_bsr {reg : ℕ} {pre mid : List (POpts × PEnv)} {e e' : PEnv} {o o' : POpts} {t0 t1 t2 t3 : PTables}
    {p p' : PObj} (h0 : createAll reg pre PTables.init = some t0) (h1 : createPrecon reg e o t0 = some (t1, some p))
    (ho : o.precon = 8) (hb : o.asked = .ilucBsr) (h2 : createAll reg mid t1 = some t2)
    (h3 : createPrecon reg e' o' t2 = some (t3, some p')) (ho' : o'.precon = 8) (hc : o'.asked = .iluc)
    (hadds : o'.adds = false) : p'.calls t3.ps = some [(.ilucBsr, .iluc)] := by
  obtain ⟨s0, _⟩ := createAll_touched _ _ _ _ h0
  obtain ⟨s1, _, b1⟩ := createAt_spec _ _ _ _ _ _ _ h1
  obtain ⟨s2, a2⟩ := createAll_touched _ _ _ _ h2
  obtain ⟨s3, a3, b3⟩ := createAt_spec _ _ _ _ _ _ _ h3
  have hi : PTables.init.Sized := ⟨rfl, rfl⟩
  have hsz := s3 (s2 (s1 (s0 hi)))
  simp only at hsz a3 b1 a2
  have hm : ∀ o : POpts, o.precon = 8 → POpts.chainN 3 o = [o] := fun o ho => by
    rw [POpts.chainN, if_neg (by omega)]
  have e1 : t1.ps.get 8 = .ilucBsr := ((b1 p rfl).2 o (by rw [hm o ho]; simp)).2.1 ho hb
  have hl : ∀ l : POpts, l.precon = 8 → l.asked ≠ .iluc → l.asked = .ilucBsr := by
    intro l h8 hn
    simp only [POpts.asked, h8] at hn ⊢
    split at hn <;> simp_all
  have e2 : t2.ps.get 8 = .ilucBsr := by
    rcases a2.1 8 with h | ⟨l, _, hn, _, h8, h⟩
    · rw [h, e1]
    · rw [h, hl l h8 hn]
  have e3 : t3.ps.get 8 = .ilucBsr := by
    rcases a3.1 8 with h | ⟨l, _, hn, _, h8, h⟩
    · rw [h, e2]
    · rw [h, hl l h8 hn]
  obtain ⟨rfl, _⟩ := b3 p' rfl
  rw [hm o' ho']
  simp [PObj.calls, PLayer.calls, POpts.layer, ho', hadds, hc, Arr.rd, hsz.1, e3]

/-- the hypotheses of `iluc_after_bsr` can be met -/
example : ∃ t1 p t3 p', createPrecon 0 goodEnv {demoPOpts with precon := 8, mtype := .bsr} PTables.init = some (t1, some p) ∧
    createPrecon 0 goodEnv {demoPOpts with precon := 8} t1 = some (t3, some p') ∧
    p'.calls t3.ps = some [(.ilucBsr, .iluc)] := ⟨_, _, _, _, rfl, rfl, rfl⟩

/-- `lis_psolveh` is never right for an ILU preconditioner in VBR format and an ILUC preconditioner in BSR format: the
solvers that use it (BiCG and BiCR, for instance) apply another function, or the function of another format. -/
theorem psolveh_vbr_bsr : (∃ t p, createPrecon 0 goodEnv {demoPOpts with mtype := .vbr} PTables.init = some (t, some p) ∧
      p.calls t.ps = some [(.iluVbr, .iluVbr)] ∧ p.calls t.psh = some [(.iluCsr, .iluVbr)]) ∧
    ∃ t p, createPrecon 0 goodEnv {demoPOpts with precon := 8, mtype := .bsr} PTables.init = some (t, some p) ∧
      p.calls t.ps = some [(.ilucBsr, .ilucBsr)] ∧ p.calls t.psh = some [(.iluc, .ilucBsr)] :=
  ⟨⟨_, _, rfl, rfl, rfl⟩, ⟨_, _, rfl, rfl, rfl⟩⟩

/-- `-p hybrid -hybrid_p 11` (the number of the additive Schwarz preconditioner) is not checked by anything and reads past
the end of the table of eleven creators. -/
theorem hybrid_adds_undefined (reg : ℕ) (e : PEnv) (o : POpts) (t : PTables) (ho : o.precon = 4) (hp : o.ppre = 11)
    (ha : o.adds = false) : createPrecon reg e o t = Option.none := by
  simp [createPrecon, createAt, createXxx, ho, hp, ha, POpts.inner]

/-! ### Non-vacuity -/

/-- a program that meets the hypotheses of `precon_applied` and `preconh_applied`: an ILU in BSR format, an (I+S), then
`-p hybrid -hybrid_p ilu -adds true` on a CSR matrix, then another ILU on a CSR matrix, an SSOR and an (I+S) of level 0 -/
example : ∃ t t1 p t2,
    createAll 0 [({demoPOpts with mtype := .bsr}, goodEnv), ({demoPOpts with precon := 5}, goodEnv)] PTables.init = some t ∧
    createPrecon 0 goodEnv {demoPOpts with precon := 4, ppre := 2, adds := true} t = some (t1, some p) ∧
    createAll 0 [(demoPOpts, goodEnv), ({demoPOpts with precon := 3}, goodEnv), ({demoPOpts with precon := 5, islevel := 0},
      goodEnv)] t1 = some t2 ∧
    p.calls t2.ps = some [(.adds, .adds), (.hybrid, .hybrid), (.iluCsr, .iluCsr)] ∧
    p.calls t2.psh = some [(.adds, .adds), (.hybrid, .hybrid), (.iluCsr, .iluCsr)] := by
  refine ⟨_, _, _, _, rfl, rfl, rfl, ?_, ?_⟩
  · refine precon_applied (reg := 0) (e := goodEnv) (pre := [({demoPOpts with mtype := .bsr}, goodEnv),
      ({demoPOpts with precon := 5}, goodEnv)]) (post := [(demoPOpts, goodEnv), ({demoPOpts with precon := 3}, goodEnv),
      ({demoPOpts with precon := 5, islevel := 0}, goodEnv)]) (o := {demoPOpts with precon := 4, ppre := 2, adds := true})
      rfl rfl rfl ?_ ?_ ?_ <;> decide +kernel
  · refine preconh_applied (reg := 0) (e := goodEnv) (pre := [({demoPOpts with mtype := .bsr}, goodEnv),
      ({demoPOpts with precon := 5}, goodEnv)]) (post := [(demoPOpts, goodEnv), ({demoPOpts with precon := 3}, goodEnv),
      ({demoPOpts with precon := 5, islevel := 0}, goodEnv)]) (o := {demoPOpts with precon := 4, ppre := 2, adds := true})
      rfl rfl rfl ?_ ?_ ?_ <;> decide +kernel

end Lis
