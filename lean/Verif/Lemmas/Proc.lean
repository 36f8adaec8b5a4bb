import Verif.Model.Proc
import Mathlib.Data.List.Nodup
import Mathlib.Tactic.Ring

/-! Schedules do not matter; executing one exchange -/

namespace Lis

variable {M α β σ : Type}

/-! ### confluence -/

theorem Net.ext' {c d : Net M α} (h1 : ∀ a, c.proc a = d.proc a) (h2 : ∀ a b, c.chan a b = d.chan a b) : c = d := by
  cases c; cases d
  simp only [Net.mk.injEq]
  exact ⟨funext h1, funext fun a => funext (h2 a)⟩

/-- the possible effects of a step of rank `r` -/
inductive Net.Eff (P : ℕ) (r : ℕ) : Net M α → Net M α → Prop where
  | bad (c : Net M α) : (∃ d m k, c.proc r = .send d m k ∧ ¬ d < P) ∨
      (∃ srcs k, c.proc r = .recvAll srcs k ∧ ¬ (srcs.Nodup ∧ ∀ s ∈ srcs, s < P)) →
      Eff P r c ⟨fun s => if s = r then .fail else c.proc s, c.chan⟩
  | send (c : Net M α) (d m k) : c.proc r = .send d m k → d < P → Eff P r c
      ⟨fun s => if s = r then k else c.proc s, fun s t => if s = r ∧ t = d then c.chan s t ++ [m] else c.chan s t⟩
  | recv (c : Net M α) (srcs k) : c.proc r = .recvAll srcs k → (srcs.Nodup ∧ ∀ s ∈ srcs, s < P) →
      (∀ s ∈ srcs, c.chan s r ≠ []) → Eff P r c
      ⟨fun s => if s = r then k (srcs.filterMap fun s => (c.chan s r).head?) else c.proc s,
          fun s t => if t = r ∧ s ∈ srcs then (c.chan s t).tail else c.chan s t⟩

theorem Net.eff_iff {P : ℕ} {c d : Net M α} {r : ℕ} : c.stepRank P r = some d ↔ Net.Eff P r c d := by
  unfold Net.stepRank
  constructor
  · intro h
    cases hr : c.proc r with
    | ret a => simp [hr] at h
    | fail => simp [hr] at h
    | send d1 m1 k1 =>
      simp only [hr] at h
      split at h <;> simp only [Option.some.injEq] at h <;> subst h
      · exact .send c d1 m1 k1 hr ‹_›
      · exact .bad c (.inl ⟨_, _, _, hr, ‹_›⟩)
    | recvAll s1 k1 =>
      simp only [hr] at h
      split at h
      · split at h
        · simp only [Option.some.injEq] at h; subst h
          exact .recv c s1 k1 hr ‹_› ‹_›
        · cases h
      · simp only [Option.some.injEq] at h; subst h
        exact .bad c (.inr ⟨_, _, hr, ‹_›⟩)
  · rintro (⟨⟨_, _, _, h1, h2⟩ | ⟨_, _, h1, h2⟩⟩ | ⟨_, _, _, h1, h2⟩ | ⟨_, _, h1, h2, h3⟩)
    · simp only [h1, if_neg h2]
    · simp only [h1, if_neg h2]
    · simp only [h1, if_pos h2]
    · simp only [h1, if_pos h2, if_pos h3]

theorem Net.Eff.cast {P r : ℕ} {c d d' : Net M α} (h : Net.Eff P r c d) (e : d = d') : Net.Eff P r c d' := e ▸ h

theorem Net.step_comm {P : ℕ} {c d e : Net M α} {r s : ℕ} (hrs : r ≠ s) (h1 : c.stepRank P r = some d)
    (h2 : c.stepRank P s = some e) : ∃ f, d.stepRank P s = some f ∧ e.stepRank P r = some f := by
  wlog hw : (∃ srcs k, c.proc s = .recvAll srcs k) ∨ ¬ ∃ srcs k, c.proc r = .recvAll srcs k generalizing r s d e
  · rw [not_or, not_not] at hw
    obtain ⟨f, hf1, hf2⟩ := this hrs.symm h2 h1 (.inl hw.2)
    exact ⟨f, hf2, hf1⟩
  simp only [Net.eff_iff] at h1 h2 ⊢
  cases h2 with
  | bad hb =>
    cases h1 with
    | bad ha =>
      refine ⟨_, .bad _ (by simpa [hrs.symm] using hb), ?_⟩
      exact Net.Eff.cast (Net.Eff.bad _ (by simpa [hrs] using ha)) (Net.ext' (by grind) (by grind))
    | send d1 m1 k1 ha1 ha2 =>
      refine ⟨_, .bad _ (by simpa [hrs.symm] using hb), ?_⟩
      exact Net.Eff.cast (Net.Eff.send _ d1 m1 k1 (by simpa [hrs] using ha1) ha2) (Net.ext' (by grind) (by grind))
    | recv s1 k1 ha1 ha2 ha3 =>
      refine ⟨_, .bad _ (by simpa [hrs.symm] using hb), ?_⟩
      exact Net.Eff.cast (Net.Eff.recv _ s1 k1 (by simpa [hrs] using ha1) ha2 (by simpa using ha3)) (Net.ext' (by grind) (by grind))
  | send d2 m2 k2 hb1 hb2 =>
    cases h1 with
    | bad ha =>
      refine ⟨_, .send _ d2 m2 k2 (by simpa [hrs.symm] using hb1) hb2, ?_⟩
      exact Net.Eff.cast (Net.Eff.bad _ (by simpa [hrs] using ha)) (Net.ext' (by grind) (by grind))
    | send d1 m1 k1 ha1 ha2 =>
      refine ⟨_, .send _ d2 m2 k2 (by simpa [hrs.symm] using hb1) hb2, ?_⟩
      exact Net.Eff.cast (Net.Eff.send _ d1 m1 k1 (by simpa [hrs] using ha1) ha2) (Net.ext' (by grind) (by grind))
    | recv s1 k1 ha1 ha2 ha3 =>
      exact absurd hw (by rw [ha1, hb1]; simp)
  | recv s2 k2 hb1 hb2 hb3 =>
    cases h1 with
    | bad ha =>
      refine ⟨_, .recv _ s2 k2 (by simpa [hrs.symm] using hb1) hb2 hb3, ?_⟩
      exact Net.Eff.cast (Net.Eff.bad _ (by simpa [hrs] using ha)) (Net.ext' (by grind) (by grind))
    | send d1 m1 k1 ha1 ha2 =>
      refine ⟨_, .recv _ s2 k2 (by simpa [hrs.symm] using hb1) hb2 (fun t ht => by
        have := hb3 t ht
        dsimp only; split <;> simp [this]), ?_⟩
      refine Net.Eff.cast (Net.Eff.send _ d1 m1 k1 (by simpa [hrs] using ha1) ha2) ?_
      refine Net.ext' ?_ ?_
      · intro a
        dsimp only
        have key : List.filterMap (fun t => (c.chan t s).head?) s2 =
            List.filterMap (fun t => (if t = r ∧ s = d1 then c.chan t s ++ [m1] else c.chan t s).head?) s2 := by
          refine List.filterMap_congr fun t ht => ?_
          have := hb3 t ht
          split
          · cases h : c.chan t s with
            | nil => exact absurd h this
            | cons x l => simp
          · rfl
        rw [key]
        grind
      · intro a b
        dsimp only
        by_cases h1 : b = s ∧ a ∈ s2
        · rw [if_pos h1, if_pos h1]
          have := hb3 a h1.2
          rw [← h1.1] at this
          split
          · cases h : c.chan a b with
            | nil => exact absurd h this
            | cons x l => simp
          · rfl
        · rw [if_neg h1, if_neg h1]
    | recv s1 k1 ha1 ha2 ha3 =>
      refine ⟨_, .recv _ s2 k2 (by simpa [hrs.symm] using hb1) hb2 (by simpa [hrs.symm] using hb3), ?_⟩
      refine Net.Eff.cast (Net.Eff.recv _ s1 k1 (by simpa [hrs] using ha1) ha2 (by simpa [hrs] using ha3)) ?_
      refine Net.ext' ?_ ?_
      · intro a
        simp only [hrs, hrs.symm, false_and, if_false]
        grind
      · grind

theorem Net.Step.diamond {P : ℕ} {c d e : Net M α} (h1 : c.Step P d) (h2 : c.Step P e) :
    d = e ∨ ∃ f, d.Step P f ∧ e.Step P f := by
  obtain ⟨r, hr, h1⟩ := h1
  obtain ⟨s, hs, h2⟩ := h2
  by_cases h : r = s
  · subst h; rw [h1] at h2; exact .inl (Option.some.inj h2)
  · obtain ⟨f, hf1, hf2⟩ := Net.step_comm h h1 h2
    exact .inr ⟨f, ⟨s, hs, hf1⟩, ⟨r, hr, hf2⟩⟩

/-- if some run of `k` steps ends in a configuration where no rank can move, one step of any other run leaves
`k-1` steps to the same end -/
theorem Net.Steps.absorb {P k : ℕ} {c d f : Net M α} (h : Net.Steps P k c f) (hf : f.Stuck P) (hd : c.Step P d) :
    ∃ k', k = k' + 1 ∧ Net.Steps P k' d f := by
  induction h generalizing d with
  | refl c => exact absurd hd (hf d)
  | @head j c e g hce heg ih =>
    refine ⟨j, rfl, ?_⟩
    rcases hd.diamond hce with rfl | ⟨x, hx1, hx2⟩
    · exact heg
    · obtain ⟨k', rfl, hk⟩ := ih hf hx2
      exact .head hx1 hk

/-- **every schedule**: all runs are at most as long, and can be completed to the same end -/
theorem Net.Steps.all {P k j : ℕ} {c d f : Net M α} (h : Net.Steps P k c f) (hf : f.Stuck P)
    (hd : Net.Steps P j c d) : j ≤ k ∧ Net.Steps P (k - j) d f := by
  induction hd generalizing k with
  | refl c => simpa using h
  | @head j c e g hce heg ih =>
    obtain ⟨k', rfl, hk⟩ := h.absorb hf hce
    have := ih hk
    exact ⟨by omega, by simpa using this.2⟩

theorem Net.Steps.unique {P k j : ℕ} {c d f : Net M α} (h : Net.Steps P k c f) (hf : f.Stuck P)
    (hd : Net.Steps P j c d) (hs : d.Stuck P) : d = f := by
  have := (h.all hf hd).2
  generalize k - j = i at this
  cases this with
  | refl => rfl
  | head h1 _ => exact absurd h1 (hs _)

theorem Net.Steps.trans {P k j : ℕ} {c d e : Net M α} (h : Net.Steps P k c d) (h' : Net.Steps P j d e) :
    Net.Steps P (k + j) c e := by
  induction h with
  | refl c => simpa using h'
  | @head i c d f h1 _ ih => rw [show i + 1 + j = i + j + 1 by ring]; exact .head h1 (ih h')

/-- some run leads from `c` to `d` -/
def Net.Reach (P : ℕ) (c d : Net M α) : Prop := ∃ k, Net.Steps P k c d

theorem Net.Reach.refl {P : ℕ} (c : Net M α) : Net.Reach P c c := ⟨0, .refl c⟩
theorem Net.Reach.trans {P : ℕ} {c d e : Net M α} (h : Net.Reach P c d) (h' : Net.Reach P d e) : Net.Reach P c e :=
  let ⟨_, h⟩ := h; let ⟨_, h'⟩ := h'; ⟨_, h.trans h'⟩
theorem Net.Reach.step {P : ℕ} {c d : Net M α} (h : c.Step P d) : Net.Reach P c d := ⟨1, .head h (.refl d)⟩

/-! ### equations of processes -/

@[simp] theorem Proc.ret_bind (a : α) (f : α → Proc M β) : (Proc.ret a).bind f = f a := rfl
@[simp] theorem Proc.pure_bindM (a : α) (f : α → Proc M β) : (pure a : Proc M α) >>= f = f a := rfl
theorem Proc.lift_bind {m : Option α} {a : α} (h : m = some a) (f : α → Proc M β) : (Proc.lift m >>= f) = f a := by
  subst h; rfl

/-- send the messages in turn -/
def Proc.sendAll : List (ℕ × M) → Proc M α → Proc M α
  | [], k => k
  | (d, m) :: l, k => .send d m (sendAll l k)

theorem Proc.sendAll_append (l l' : List (ℕ × M)) (k : Proc M α) :
    Proc.sendAll (l ++ l') k = Proc.sendAll l (Proc.sendAll l' k) := by
  induction l with
  | nil => rfl
  | cons e l ih => simp only [List.cons_append, Proc.sendAll, ih]

theorem Proc.sendAll_bind (l : List (ℕ × M)) (k : Proc M α) (f : α → Proc M β) :
    (Proc.sendAll l k).bind f = Proc.sendAll l (k.bind f) := by
  induction l with
  | nil => rfl
  | cons e l ih => simp only [Proc.sendAll, Proc.bind, ih]

/-- `p` sends exactly the messages `l`, in order, and then is done with a result satisfying `Q` -/
def Proc.Sends (p : Proc M α) (l : List (ℕ × M)) (Q : α → Prop) : Prop := ∃ a, p = Proc.sendAll l (.ret a) ∧ Q a

theorem Proc.Sends.iter {f : ℕ → σ → Proc M σ} (I : ℕ → σ → Prop) (msg : ℕ → List (ℕ × M)) :
    ∀ (k i : ℕ) (s : σ), I i s →
    (∀ j s, i ≤ j → j < i + k → I j s → (f j s).Sends (msg j) (I (j + 1))) →
    (Proc.iter f k i s).Sends ((List.range' i k).flatMap msg) (I (i + k)) := by
  intro k
  induction k with
  | zero => intro i s h _; exact ⟨s, rfl, h⟩
  | succ k ih =>
    intro i s h hs
    obtain ⟨a, ha, hI⟩ := hs i s le_rfl (by omega) h
    obtain ⟨b, hb, hI'⟩ := ih (i + 1) a hI (fun j s h1 h2 => hs j s (by omega) (by omega))
    refine ⟨b, ?_, by rwa [show i + (k + 1) = i + 1 + k by omega]⟩
    simp only [Proc.iter, ha, Proc.sendAll_bind, Proc.ret_bind, hb, List.range'_succ, List.flatMap_cons,
      Proc.sendAll_append]

theorem Proc.Sends.loop {n : ℕ} {s : σ} {f : ℕ → σ → Proc M σ} (I : ℕ → σ → Prop) (msg : ℕ → ℕ × M)
    (h0 : I 0 s) (hs : ∀ i s, i < n → I i s → (f i s).Sends [msg i] (I (i + 1))) :
    (Proc.loop 0 n s f).Sends ((List.range n).map msg) (I n) := by
  have := Proc.Sends.iter (f := f) I (fun j => [msg j]) n 0 s h0 (fun j s _ h => hs j s (by omega))
  rw [List.range_eq_range']
  have h2 : List.map msg (List.range' 0 n) = List.flatMap (fun j => [msg j]) (List.range' 0 n) := by
    generalize List.range' 0 n = L
    induction L <;> simp_all
  rw [h2]
  simpa [Proc.loop] using this

/-! ### one exchange -/

theorem Net.reach_sends {P : ℕ} {r : ℕ} (hr : r < P) (k : Proc M α) : ∀ (l : List (ℕ × M)) (c : Net M α),
    c.proc r = Proc.sendAll l k → (∀ e ∈ l, e.1 < P) →
    Net.Reach P c ⟨fun s => if s = r then k else c.proc s,
      fun s t => if s = r then c.chan s t ++ (l.filter fun e => e.1 = t).map Prod.snd else c.chan s t⟩ := by
  intro l
  induction l with
  | nil =>
    intro c h _
    have : c = ⟨fun s => if s = r then k else c.proc s,
      fun s t => if s = r then c.chan s t ++ (([] : List (ℕ × M)).filter fun e => e.1 = t).map Prod.snd else c.chan s t⟩ := by
      refine Net.ext' (fun a => ?_) (fun a b => by simp)
      dsimp only
      split
      · next h' => subst h'; simpa [Proc.sendAll] using h
      · rfl
    rw [← this]
    exact .refl c
  | cons e l ih =>
    intro c h hl
    have h1 : c.Step P _ := ⟨r, hr, Net.eff_iff.2 (.send _ e.1 e.2 (Proc.sendAll l k) h (hl e (by simp)))⟩
    refine (Net.Reach.step h1).trans ?_
    have := ih _ (by simp : (Net.mk (fun s => if s = r then Proc.sendAll l k else c.proc s)
      (fun s t => if s = r ∧ t = e.1 then c.chan s t ++ [e.2] else c.chan s t)).proc r = _) (fun e he => hl e (by simp [he]))
    convert this using 1
    refine Net.ext' (by grind) (fun a b => ?_)
    dsimp only
    by_cases ha : a = r
    · by_cases hb : e.1 = b
      · simp [ha, hb]
      · have hb' : ¬ b = e.1 := fun h => hb h.symm
        simp [ha, hb, hb']
    · simp [ha]

/-- One exchange.  Rank `r` sends `m r d` to every `d` in `dsts r` and then waits for a message from every rank in
`srcs r`, where `s ∈ srcs r` exactly when `r ∈ dsts s`, and no message is under way.  Then every rank can go on with
the messages meant for it, and no message is left. -/
theorem Net.exchange {P : ℕ} {p : ℕ → Proc M α} {dsts srcs : ℕ → List ℕ} {m : ℕ → ℕ → M}
    {k : ℕ → List M → Proc M α}
    (hp : ∀ r, r < P → p r = Proc.sendAll ((dsts r).map fun d => (d, m r d)) (.recvAll (srcs r) (k r)))
    (hd : ∀ r, r < P → (dsts r).Nodup ∧ ∀ d ∈ dsts r, d < P)
    (hs : ∀ r, r < P → (srcs r).Nodup ∧ ∀ s ∈ srcs r, s < P)
    (hm : ∀ r s, r < P → s < P → (s ∈ srcs r ↔ r ∈ dsts s)) :
    Net.Reach P (.start p) (.start fun r => if r < P then k r ((srcs r).map fun s => m s r) else p r) := by
  have hone : ∀ r, r < P → ∀ t, (((dsts r).map fun d => (d, m r d)).filter fun e => e.1 = t).map Prod.snd =
      if t ∈ dsts r then [m r t] else [] := by
    intro r hr t
    have hnd := (hd r hr).1
    generalize dsts r = L at hnd
    induction L with
    | nil => simp
    | cons a L ih =>
      rw [List.nodup_cons] at hnd
      by_cases hat : a = t
      · subst hat
        simp [ih hnd.2, hnd.1]
      · have : ¬ t = a := fun h => hat h.symm
        simp [ih hnd.2, hat, this]
  -- all sends
  have hsend : ∀ q, q ≤ P → Net.Reach P (.start p)
      ⟨fun r => if r < q then .recvAll (srcs r) (k r) else p r,
        fun s t => if s < q ∧ t ∈ dsts s then [m s t] else []⟩ := by
    intro q
    induction q with
    | zero => intro _; simpa [Net.start] using Net.Reach.refl (Net.start p)
    | succ q ih =>
      intro hq
      refine (ih (by omega)).trans ?_
      have := Net.reach_sends (P := P) (r := q) (by omega) (.recvAll (srcs q) (k q)) ((dsts q).map fun d => (d, m q d))
        ⟨fun r => if r < q then .recvAll (srcs r) (k r) else p r, fun s t => if s < q ∧ t ∈ dsts s then [m s t] else []⟩
        (by simp [hp q (by omega)]) (by simpa using (hd q (by omega)).2)
      convert this using 1
      refine Net.ext' (fun a => ?_) (fun a b => ?_)
      · grind
      · dsimp only
        rw [hone q (by omega)]
        grind
  have hrecv : ∀ q, q ≤ P → Net.Reach P
      ⟨fun r => if r < P then .recvAll (srcs r) (k r) else p r,
        fun s t => if s < P ∧ t ∈ dsts s then [m s t] else []⟩
      ⟨fun r => if r < q then k r ((srcs r).map fun s => m s r) else if r < P then .recvAll (srcs r) (k r) else p r,
        fun s t => if s < P ∧ t ∈ dsts s ∧ q ≤ t then [m s t] else []⟩ := by
    intro q
    induction q with
    | zero =>
      intro _
      simpa using Net.Reach.refl _
    | succ q ih =>
      intro hq
      refine (ih (by omega)).trans (.step ⟨q, by omega, Net.eff_iff.2 ?_⟩)
      refine Net.Eff.cast (.recv _ (srcs q) (k q) (by simp; omega) (hs q (by omega)) ?_) ?_
      · intro s hs'
        have := (hs q (by omega)).2 s hs'
        have := (hm q s (by omega) this).1 hs'
        simp [*]
      · refine Net.ext' (fun a => ?_) (fun a b => ?_)
        · dsimp only
          have : List.filterMap (fun s => (if s < P ∧ q ∈ dsts s ∧ q ≤ q then [m s q] else []).head?) (srcs q) =
              (srcs q).map fun s => m s q := by
            rw [← List.filterMap_eq_map]
            refine List.filterMap_congr fun s hs' => ?_
            have h1 := (hs q (by omega)).2 s hs'
            have h2 := (hm q s (by omega) h1).1 hs'
            simp [h1, h2]
          rw [this]
          grind
        · dsimp only
          by_cases hb : b = q
          · subst hb
            by_cases ha : a < P
            · have := hm b a (by omega) ha
              by_cases hab : a ∈ srcs b
              · simp [hab, ha]
                grind
              · have : b ∉ dsts a := fun h => hab (this.2 h)
                simp [hab, this]
            · grind
          · rw [if_neg (by simp [hb])]
            grind
  refine (hsend P le_rfl).trans ?_
  convert hrecv P le_rfl using 1
  refine Net.ext' (fun a => ?_) (fun a b => ?_)
  · simp only [Net.start]; grind
  · simp only [Net.start]
    by_cases h : a < P ∧ b ∈ dsts a
    · have := (hd a h.1).2 b h.2
      rw [if_neg (by omega)]
    · rw [if_neg (by tauto)]

/-- a configuration in which every rank has returned -/
theorem Net.stuck_ret {P : ℕ} {c : Net M α} (h : ∀ r, r < P → ∃ a, c.proc r = .ret a) : c.Stuck P := by
  rintro d ⟨r, hr, h'⟩
  obtain ⟨a, ha⟩ := h r hr
  simp [Net.stepRank, ha] at h'

/-! ### phases -/

/-- `p` sends `m d` to every `d` in `dsts`, waits for messages from `srcs`, and, when these are `inc s`, goes on as a
process satisfying `Q` -/
def Proc.Talks (p : Proc M α) (dsts : List ℕ) (m : ℕ → M) (srcs : List ℕ) (inc : ℕ → M) (Q : Proc M α → Prop) : Prop :=
  ∃ k, p = Proc.sendAll (dsts.map fun d => (d, m d)) (.recvAll srcs k) ∧ Q (k (srcs.map inc))

theorem Proc.Talks.bind {p : Proc M α} {dsts srcs : List ℕ} {m inc : ℕ → M} {φ : α → Prop}
    (h : p.Talks dsts m srcs inc fun q => ∃ a, q = .ret a ∧ φ a) (f : α → Proc M β) :
    (p.bind f).Talks dsts m srcs inc fun q => ∃ a, q = f a ∧ φ a := by
  obtain ⟨k, rfl, a, ha, hφ⟩ := h
  exact ⟨fun ms => (k ms).bind f, by rw [Proc.sendAll_bind]; rfl, a, by simp [ha], hφ⟩

/-- sends, then the group of receives -/
theorem Proc.Sends.talks {p : Proc M α} {dsts srcs : List ℕ} {m inc : ℕ → M} {φ : α → Prop} {Q : Proc M β → Prop}
    (h : p.Sends (dsts.map fun d => (d, m d)) φ) (f : α → Proc M β)
    (hf : ∀ a, φ a → ∃ k, f a = .recvAll srcs k ∧ Q (k (srcs.map inc))) : (p.bind f).Talks dsts m srcs inc Q := by
  obtain ⟨a, rfl, ha⟩ := h
  obtain ⟨k, hk, hq⟩ := hf a ha
  exact ⟨k, by rw [Proc.sendAll_bind, Proc.ret_bind, hk], hq⟩

theorem Proc.Talks.mono {p : Proc M α} {dsts srcs : List ℕ} {m inc : ℕ → M} {Q Q' : Proc M α → Prop}
    (h : p.Talks dsts m srcs inc Q) (hq : ∀ q, Q q → Q' q) : p.Talks dsts m srcs inc Q' := by
  obtain ⟨k, hk, h⟩ := h
  exact ⟨k, hk, hq _ h⟩

theorem Net.talk {P : ℕ} {p : ℕ → Proc M α} {nb : ℕ → List ℕ} {m : ℕ → ℕ → M} {Q : ℕ → Proc M α → Prop}
    (hp : ∀ r, r < P → (p r).Talks (nb r) (m r) (nb r) (fun s => m s r) (Q r))
    (hd : ∀ r, r < P → (nb r).Nodup ∧ ∀ d ∈ nb r, d < P)
    (hm : ∀ r s, r < P → s < P → (s ∈ nb r ↔ r ∈ nb s)) :
    ∃ p', Net.Reach P (.start p) (.start p') ∧ ∀ r, r < P → Q r (p' r) := by
  haveI : Nonempty (List M → Proc M α) := ⟨fun _ => .fail⟩
  choose! k hk using hp
  refine ⟨_, Net.exchange (fun r hr => (hk r hr).1) hd hd hm, fun r hr => ?_⟩
  simp only [hr, if_true]
  exact (hk r hr).2

/-! ### collective operations -/

/-- every rank's process followed by a continuation -/
def Net.bindAll (c : Net M α) (f : ℕ → α → Proc M β) : Net M β := ⟨fun r => (c.proc r).bind (f r), c.chan⟩

theorem Net.Eff.bindAll {P r : ℕ} {c d : Net M α} (h : Net.Eff P r c d) (f : ℕ → α → Proc M β) :
    Net.Eff P r (c.bindAll f) (d.bindAll f) := by
  cases h with
  | bad h =>
    refine Net.Eff.cast (.bad _ ?_) (Net.ext' (fun a => ?_) (fun _ _ => rfl))
    · rcases h with ⟨d, m, k, h1, h2⟩ | ⟨s, k, h1, h2⟩
      · exact .inl ⟨d, m, k.bind (f r), by simp [Net.bindAll, h1, Proc.bind], h2⟩
      · exact .inr ⟨s, fun ms => (k ms).bind (f r), by simp [Net.bindAll, h1, Proc.bind], h2⟩
    · simp only [Net.bindAll]
      split <;> simp [Proc.bind]
  | send d m k h1 h2 =>
    refine Net.Eff.cast (.send _ d m (k.bind (f r)) (by simp [Net.bindAll, h1, Proc.bind]) h2)
      (Net.ext' (fun a => ?_) (fun _ _ => rfl))
    simp only [Net.bindAll]
    split
    · next h => rw [h]
    · rfl
  | recv s k h1 h2 h3 =>
    refine Net.Eff.cast (.recv _ s (fun ms => (k ms).bind (f r)) (by simp [Net.bindAll, h1, Proc.bind]) h2 h3)
      (Net.ext' (fun a => ?_) (fun _ _ => rfl))
    simp only [Net.bindAll]
    split
    · next h => rw [h]
    · rfl

theorem Net.Reach.bindAll {P : ℕ} {c d : Net M α} (h : Net.Reach P c d) (f : ℕ → α → Proc M β) :
    Net.Reach P (c.bindAll f) (d.bindAll f) := by
  obtain ⟨k, h⟩ := h
  induction h with
  | refl c => exact .refl _
  | head h1 _ ih =>
    obtain ⟨r, hr, h1⟩ := h1
    exact (Net.Reach.step ⟨r, hr, Net.eff_iff.2 ((Net.eff_iff.1 h1).bindAll f)⟩).trans ih

/-- what the ranks that do not exist run is irrelevant -/
def Net.patch (P : ℕ) (g : ℕ → Proc M α) (c : Net M α) : Net M α := ⟨fun r => if r < P then c.proc r else g r, c.chan⟩

theorem Net.Reach.patch {P : ℕ} {c d : Net M α} (h : Net.Reach P c d) (g : ℕ → Proc M α) :
    Net.Reach P (c.patch P g) (d.patch P g) := by
  obtain ⟨k, h⟩ := h
  induction h with
  | refl c => exact .refl _
  | head h1 _ ih =>
    obtain ⟨r, hr, h1⟩ := h1
    refine (Net.Reach.step ⟨r, hr, Net.eff_iff.2 ?_⟩).trans ih
    cases Net.eff_iff.1 h1 with
    | bad h =>
      exact Net.Eff.cast (.bad _ (by simpa [Net.patch, hr] using h)) (Net.ext' (fun a => by simp only [Net.patch]; grind) (fun _ _ => rfl))
    | send d m k g1 g2 =>
      exact Net.Eff.cast (.send _ d m k (by simpa [Net.patch, hr] using g1) g2)
        (Net.ext' (fun a => by simp only [Net.patch]; grind) (fun _ _ => rfl))
    | recv s k g1 g2 g3 =>
      exact Net.Eff.cast (.recv _ s k (by simpa [Net.patch, hr] using g1) g2 g3)
        (Net.ext' (fun a => by simp only [Net.patch]; grind) (fun _ _ => rfl))

/-- some run of the ranks' processes ends with every rank `r` returning a result satisfying `φ r` and no message left -/
def Collective (P : ℕ) (p : ℕ → Proc M α) (φ : ℕ → α → Prop) : Prop :=
  ∃ a : ℕ → α, (∃ p', Net.Reach P (.start p) (.start p') ∧ ∀ r, r < P → p' r = .ret (a r)) ∧ ∀ r, r < P → φ r (a r)

theorem Collective.congr {P : ℕ} {p q : ℕ → Proc M α} {φ : ℕ → α → Prop} (h : Collective P p φ)
    (hpq : ∀ r, r < P → p r = q r) : Collective P q φ := by
  obtain ⟨a, ⟨p', h1, h2⟩, h3⟩ := h
  refine ⟨a, ⟨fun r => if r < P then p' r else q r, ?_, fun r hr => by simp [hr, h2 r hr]⟩, h3⟩
  have := h1.patch q
  have e1 : (Net.start p).patch P q = Net.start q := by
    refine Net.ext' (fun r => ?_) (fun _ _ => rfl)
    simp only [Net.patch, Net.start]
    split
    · next h => exact hpq r h
    · rfl
  rw [e1] at this
  exact this

theorem Collective.bind {P : ℕ} {p : ℕ → Proc M α} {φ : ℕ → α → Prop} (h : Collective P p φ) {f : ℕ → α → Proc M β}
    {ψ : ℕ → β → Prop} (hf : ∀ a : ℕ → α, (∀ r, r < P → φ r (a r)) → Collective P (fun r => f r (a r)) ψ) :
    Collective P (fun r => (p r).bind (f r)) ψ := by
  obtain ⟨a, ⟨p', h1, h2⟩, h3⟩ := h
  obtain ⟨b, ⟨p'', k1, k2⟩, k3⟩ := (hf a h3).congr (q := fun r => (p' r).bind (f r)) (fun r hr => by rw [h2 r hr]; rfl)
  exact ⟨b, ⟨p'', (h1.bindAll f).trans k1, k2⟩, k3⟩

theorem Collective.ret {P : ℕ} {p : ℕ → Proc M α} {φ : ℕ → α → Prop} [Nonempty α]
    (h : ∀ r, r < P → ∃ a, p r = .ret a ∧ φ r a) : Collective P p φ := by
  choose! a ha using h
  exact ⟨a, ⟨p, .refl _, fun r hr => (ha r hr).1⟩, fun r hr => (ha r hr).2⟩

theorem Collective.of_ok {P : ℕ} {m : ℕ → Option α} {φ : ℕ → α → Prop} (h : ∀ r, r < P → Ok (m r) (φ r)) [Nonempty α] :
    Collective P (fun r => (Proc.lift (m r) : Proc M α)) φ :=
  .ret fun r hr => let ⟨a, h1, h2⟩ := h r hr; ⟨a, by rw [h1]; rfl, h2⟩

/-- one exchange after which every rank is done -/
theorem Collective.talk {P : ℕ} {p : ℕ → Proc M α} {nb : ℕ → List ℕ} {m : ℕ → ℕ → M} {φ : ℕ → α → Prop} [Nonempty α]
    (hp : ∀ r, r < P → (p r).Talks (nb r) (m r) (nb r) (fun s => m s r) fun q => ∃ a, q = .ret a ∧ φ r a)
    (hd : ∀ r, r < P → (nb r).Nodup ∧ ∀ d ∈ nb r, d < P)
    (hm : ∀ r s, r < P → s < P → (s ∈ nb r ↔ r ∈ nb s)) : Collective P p φ := by
  obtain ⟨p', h1, h2⟩ := Net.talk hp hd hm
  choose! a ha using h2
  exact ⟨a, ⟨p', h1, fun r hr => (ha r hr).1⟩, fun r hr => (ha r hr).2⟩

theorem Collective.mono {P : ℕ} {p : ℕ → Proc M α} {φ ψ : ℕ → α → Prop} (h : Collective P p φ)
    (hq : ∀ r a, r < P → φ r a → ψ r a) : Collective P p ψ := by
  obtain ⟨a, h1, h2⟩ := h
  exact ⟨a, h1, fun r hr => hq r _ hr (h2 r hr)⟩

/-- properties of the family of results -/
theorem Collective.family {P : ℕ} {p : ℕ → Proc M α} {φ : ℕ → α → Prop} (h : Collective P p φ) {ψ : ℕ → α → Prop}
    (hq : ∀ a : ℕ → α, (∀ r, r < P → φ r (a r)) → ∀ r, r < P → ψ r (a r)) : Collective P p ψ := by
  obtain ⟨a, h1, h2⟩ := h
  exact ⟨a, h1, hq a h2⟩

theorem Collective.all {P : ℕ} {p : ℕ → Proc M α} {φ : ℕ → α → Prop} (h : Collective P p φ) : AllSchedules P p φ := by
  obtain ⟨a, ⟨p', ⟨K, h1⟩, h2⟩, h3⟩ := h
  have hst : (Net.start p').Stuck P := Net.stuck_ret fun r hr => ⟨a r, h2 r hr⟩
  refine ⟨K, fun j d hd => ⟨(h1.all hst hd).1, fun hs => ?_⟩⟩
  rw [h1.unique hst hd hs]
  exact ⟨fun r hr => ⟨a r, h2 r hr, h3 r hr⟩, fun _ _ => rfl⟩

/-- a rank that fails can never be part of a good run -/
theorem AllSchedules.no_fail {P : ℕ} {p : ℕ → Proc M α} {φ : ℕ → α → Prop} (h : AllSchedules P p φ) {j : ℕ} {d : Net M α}
    (hd : Net.Steps P j (.start p) d) {r : ℕ} (hr : r < P) : d.proc r ≠ .fail := by
  intro hf
  obtain ⟨K, hK⟩ := h
  -- run on until nothing moves
  have : ∀ n j (d : Net M α), Net.Steps P j (.start p) d → d.proc r = .fail → K - j < n → False := by
    intro n
    induction n with
    | zero => intro j d _ _ h; omega
    | succ n ih =>
      intro j d hd hf hn
      by_cases hs : d.Stuck P
      · obtain ⟨a, ha, _⟩ := ((hK j d hd).2 hs).1 r hr
        rw [hf] at ha; cases ha
      · obtain ⟨e, he⟩ := not_forall_not.1 hs
        have hde : Net.Steps P (j + 1) (.start p) e := hd.trans (.head he (.refl e))
        refine ih (j + 1) e hde ?_ ?_
        · obtain ⟨s, hs', h'⟩ := he
          have : s ≠ r := by
            rintro rfl
            simp [Net.stepRank, hf] at h'
          cases Net.eff_iff.1 h' <;> simp [this.symm, hf]
        · have := (hK _ _ hde).1
          omega
  exact this (K - j + 1) j d hd hf (by omega)

end Lis
