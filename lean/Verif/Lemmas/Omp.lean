import Verif.Model.Omp
import Verif.Lemmas.Vector
import Mathlib.Algebra.BigOperators.Group.Finset.Basic
import Mathlib.Algebra.Order.BigOperators.Group.Finset

/-! Ownership: threads that write only their own cells, and read only their own cells and cells nobody writes,
give the same result in every interleaving -/

namespace Lis
variable {V α β : Type}

@[simp] theorem Thr.pure_eq (x : α) : (pure x : Thr V α) = .ret x := rfl
@[simp] theorem Thr.bind_ret (x : α) (f : α → Thr V β) : (Thr.ret x >>= f) = f x := rfl

/-- weakest precondition of a thread that runs alone and respects the ownership of the cells -/
def Thr.wp (own : ℕ → ℕ → Option ℕ) (t : ℕ) : Thr V α → Mem V → (α → Mem V → Prop) → Prop
  | .ret x, m, Q => Q x m
  | .fail, _, _ => False
  | .rd a i k, m, Q => (own a i = none ∨ own a i = some t) ∧ i < (m a).size ∧ (k ((m a).get i)).wp own t m Q
  | .wr a i v k, m, Q => own a i = some t ∧ i < (m a).size ∧ k.wp own t (m.set a i v) Q
  | .bar _, _, _ => False

/-- same sizes, same contents where thread `t` may look -/
def View (own : ℕ → ℕ → Option ℕ) (t : ℕ) (m m' : Mem V) : Prop :=
  ∀ a, (m' a).size = (m a).size ∧ ∀ i, own a i = none ∨ own a i = some t → (m' a).get i = (m a).get i

/-- same sizes, same contents outside the cells of thread `t` -/
def Frame (own : ℕ → ℕ → Option ℕ) (t : ℕ) (m m' : Mem V) : Prop :=
  ∀ a, (m' a).size = (m a).size ∧ ∀ i, own a i ≠ some t → (m' a).get i = (m a).get i

theorem Mem.set_size (m : Mem V) (a i : ℕ) (v : V) (b : ℕ) : ((m.set a i v) b).size = (m b).size := by
  unfold Mem.set; split
  · next h => rw [h]; rfl
  · rfl

theorem Mem.set_get (m : Mem V) (a i : ℕ) (v : V) (b j : ℕ) :
    ((m.set a i v) b).get j = if b = a ∧ j = i then v else (m b).get j := by
  unfold Mem.set
  by_cases h : b = a
  · subst h
    by_cases h2 : j = i
    · simp [h2]
    · simp [h2, Arr.set_get]
  · simp [h]

namespace Thr
variable {own : ℕ → ℕ → Option ℕ} {t : ℕ}

theorem wp_bind (p : Thr V α) (f : α → Thr V β) : ∀ (m : Mem V) (Q : β → Mem V → Prop),
    (p >>= f).wp own t m Q ↔ p.wp own t m (fun x m' => (f x).wp own t m' Q) := by
  induction p with
  | ret x => intro m Q; rfl
  | fail => intro m Q; rfl
  | rd a i k ih => intro m Q; exact and_congr_right fun _ => and_congr_right fun _ => ih _ m Q
  | wr a i v k ih => intro m Q; exact and_congr_right fun _ => and_congr_right fun _ => ih _ Q
  | bar k ih => intro m Q; rfl

theorem wp_mono {p : Thr V α} : ∀ {m : Mem V} {Q Q' : α → Mem V → Prop}, p.wp own t m Q →
    (∀ x m', Q x m' → Q' x m') → p.wp own t m Q' := by
  induction p with
  | ret x => intro m Q Q' h hq; exact hq _ _ h
  | fail => intro m Q Q' h _; exact h
  | rd a i k ih => intro m Q Q' h hq; exact ⟨h.1, h.2.1, ih _ h.2.2 hq⟩
  | wr a i v k ih => intro m Q Q' h hq; exact ⟨h.1, h.2.1, ih h.2.2 hq⟩
  | bar k ih => intro m Q Q' h _; exact h

theorem wp_get (a i : ℕ) (m : Mem V) (Q : V → Mem V → Prop) : (Thr.get a i).wp own t m Q ↔
    (own a i = none ∨ own a i = some t) ∧ i < (m a).size ∧ Q ((m a).get i) m := Iff.rfl

theorem wp_put (a i : ℕ) (v : V) (m : Mem V) (Q : Unit → Mem V → Prop) : (Thr.put a i v).wp own t m Q ↔
    own a i = some t ∧ i < (m a).size ∧ Q () (m.set a i v) := Iff.rfl

theorem wp_ret (x : α) (m : Mem V) (Q : α → Mem V → Prop) : (Thr.ret x).wp own t m Q ↔ Q x m := Iff.rfl

theorem wp_pure (x : α) (m : Mem V) (Q : α → Mem V → Prop) : (pure x : Thr V α).wp own t m Q ↔ Q x m := Iff.rfl

theorem wp_lift (o : Option α) (m : Mem V) (Q : α → Mem V → Prop) :
    (Thr.lift o : Thr V α).wp own t m Q ↔ Ok o fun x => Q x m := by
  cases o with
  | none => simp [Thr.lift, wp]
  | some x => simp [Thr.lift, wp]

theorem wp_frame {p : Thr V α} : ∀ {m m0 : Mem V} {Q : α → Mem V → Prop}, p.wp own t m Q → Frame own t m0 m →
    p.wp own t m (fun x m' => Q x m' ∧ Frame own t m0 m') := by
  induction p with
  | ret x => intro m m0 Q h hf; exact ⟨h, hf⟩
  | fail => intro m m0 Q h _; exact h
  | rd a i k ih => intro m m0 Q h hf; exact ⟨h.1, h.2.1, ih _ h.2.2 hf⟩
  | wr a i v k ih =>
    intro m m0 Q h hf
    refine ⟨h.1, h.2.1, ih h.2.2 fun b => ⟨by rw [Mem.set_size]; exact (hf b).1, fun j hj => ?_⟩⟩
    rw [Mem.set_get, if_neg (fun e => hj (by rw [e.1, e.2]; exact h.1))]
    exact (hf b).2 j hj
  | bar k ih => intro m m0 Q h _; exact h

theorem _root_.Lis.View.refl (m : Mem V) : View own t m m := fun _ => ⟨rfl, fun _ _ => rfl⟩
theorem _root_.Lis.Frame.refl (m : Mem V) : Frame own t m m := fun _ => ⟨rfl, fun _ _ => rfl⟩
theorem _root_.Lis.View.symm {m m' : Mem V} (h : View own t m m') : View own t m' m :=
  fun a => ⟨(h a).1.symm, fun i hi => ((h a).2 i hi).symm⟩
theorem _root_.Lis.View.trans {m m' m'' : Mem V} (h : View own t m m') (h' : View own t m' m'') :
    View own t m m'' :=
  fun a => ⟨(h' a).1.trans (h a).1, fun i hi => ((h' a).2 i hi).trans ((h a).2 i hi)⟩

theorem wp_congr {p : Thr V α} : ∀ {m m2 : Mem V} {Q : α → Mem V → Prop}, View own t m m2 → p.wp own t m Q →
    p.wp own t m2 (fun x m2' => ∃ m', Q x m' ∧ View own t m' m2') := by
  induction p with
  | ret x => intro m m2 Q hv h; exact ⟨m, h, hv⟩
  | fail => intro m m2 Q _ h; exact h
  | rd a i k ih =>
    intro m m2 Q hv h
    refine ⟨h.1, by rw [(hv a).1]; exact h.2.1, ?_⟩
    rw [(hv a).2 i h.1]
    exact ih _ hv h.2.2
  | wr a i v k ih =>
    intro m m2 Q hv h
    refine ⟨h.1, by rw [(hv a).1]; exact h.2.1, ih (m := m.set a i v) ?_ h.2.2⟩
    intro b
    refine ⟨by rw [Mem.set_size, Mem.set_size]; exact (hv b).1, fun j hj => ?_⟩
    rw [Mem.set_get, Mem.set_get, (hv b).2 j hj]
  | bar k ih => intro m m2 Q _ h; exact h

/-- number of accesses when run alone -/
def cost : Thr V α → Mem V → ℕ
  | .rd a i k, m => (k ((m a).get i)).cost m + 1
  | .wr a i v k, m => k.cost (m.set a i v) + 1
  | _, _ => 0

theorem cost_congr {p : Thr V α} : ∀ {m m2 : Mem V} {Q : α → Mem V → Prop}, View own t m m2 → p.wp own t m Q →
    p.cost m2 = p.cost m := by
  induction p with
  | ret x => intro m m2 Q hv h; rfl
  | fail => intro m m2 Q _ h; rfl
  | rd a i k ih =>
    intro m m2 Q hv h
    simp only [cost]
    rw [(hv a).2 i h.1, ih _ hv h.2.2]
  | wr a i v k ih =>
    intro m m2 Q hv h
    simp only [cost]
    rw [ih (m := m.set a i v) ?_ h.2.2]
    intro b
    refine ⟨by rw [Mem.set_size, Mem.set_size]; exact (hv b).1, fun j hj => ?_⟩
    rw [Mem.set_get, Mem.set_get, (hv b).2 j hj]
  | bar k ih => intro m m2 Q _ h; rfl

/-! ### loops -/

theorem wp_forL {σ : Type} {f : ℕ → σ → Thr V σ} (I : List ℕ → σ → Mem V → Prop) :
    ∀ (l done : List ℕ) (s : σ) (m : Mem V) {Q : σ → Mem V → Prop}, I done s m →
    (∀ i s m done' rest, done ++ l = done' ++ i :: rest → I done' s m →
      (f i s).wp own t m (fun s' m' => I (done' ++ [i]) s' m')) →
    (∀ s m, I (done ++ l) s m → Q s m) → (Thr.forL l s f).wp own t m Q := by
  intro l
  induction l with
  | nil => intro done s m Q h _ hq; exact hq s m (by simpa using h)
  | cons i l ih =>
    intro done s m Q h hstep hq
    rw [Thr.forL, wp_bind]
    refine wp_mono (hstep i s m done l rfl h) fun s' m' h' => ?_
    refine ih (done ++ [i]) s' m' h' ?_ (by simpa using hq)
    intro j s m d r e hI
    exact hstep j s m d r (by simpa using e) hI

/-- invariant indexed by the loop variable -/
theorem wp_for {σ : Type} {f : ℕ → σ → Thr V σ} (I : ℕ → σ → Mem V → Prop) {lo hi : ℕ} {s : σ} {m : Mem V}
    {Q : σ → Mem V → Prop} (hle : lo ≤ hi) (h0 : I lo s m)
    (hstep : ∀ i s m, lo ≤ i → i < hi → I i s m → (f i s).wp own t m (fun s' m' => I (i + 1) s' m'))
    (hq : ∀ s m, I hi s m → Q s m) : (Thr.for' lo hi s f).wp own t m Q := by
  unfold Thr.for'
  suffices H : ∀ (k i : ℕ) (s : σ) (m : Mem V), lo ≤ i → i + k = hi → I i s m →
      (Thr.forL (List.range' i k) s f).wp own t m Q by
    exact H (hi - lo) lo s m le_rfl (by omega) h0
  intro k
  induction k with
  | zero => intro i s m _ e h; exact hq s m (by rw [← e]; exact h)
  | succ k ih =>
    intro i s m h1 e h
    rw [List.range'_succ, Thr.forL, wp_bind]
    exact wp_mono (hstep i s m h1 (by omega) h) fun s' m' h' => ih (i + 1) s' m' (by omega) (by omega) h'

/-- a loop that reads only: the thread version follows the serial one -/
theorem wp_for_pure {σ : Type} {f : ℕ → σ → Thr V σ} {g : ℕ → σ → Option σ} {m : Mem V}
    (hfg : ∀ i s s' (Q : σ → Mem V → Prop), g i s = some s' → Q s' m → (f i s).wp own t m Q)
    {lo hi : ℕ} {s s' : σ} {Q : σ → Mem V → Prop} (h : loop lo hi s g = some s') (hq : Q s' m) :
    (Thr.for' lo hi s f).wp own t m Q := by
  unfold Thr.for' loop at *
  generalize hi - lo = k at h ⊢
  induction k generalizing lo s with
  | zero => simp only [iter, Option.some.injEq] at h; subst h; exact hq
  | succ k ih =>
    rw [iter] at h
    cases hg : g lo s with
    | none => rw [hg] at h; cases h
    | some s1 =>
      rw [hg] at h
      rw [List.range'_succ, Thr.forL, wp_bind]
      exact hfg _ _ _ _ hg (ih h)

end Thr

/-! ### every interleaving -/

/-- threads that respect the ownership of the cells -/
theorem always_of_wp {own : ℕ → ℕ → Option ℕ} {T : ℕ} {m0 : Mem V} {p : ℕ → Thr V Unit} (Q : ℕ → Mem V → Prop)
    (h : ∀ t, t < T → (p t).wp own t m0 fun _ m => Q t m) {φ : Mem V → Prop}
    (hφ : ∀ m : Mem V, (∀ a, (m a).size = (m0 a).size) →
      (∀ a i, (∀ t, t < T → own a i ≠ some t) → (m a).get i = (m0 a).get i) →
      (∀ t, t < T → ∃ mt, Q t mt ∧ View own t mt m) → φ m) :
    ompParallel T p m0 φ := by
  unfold ompParallel
  suffices H : ∀ (N : ℕ) (c : Team V), (∑ t ∈ Finset.range T, (c.thr t).cost c.mem) = N →
      (∀ a, (c.mem a).size = (m0 a).size) →
      (∀ a i, (∀ t, t < T → own a i ≠ some t) → (c.mem a).get i = (m0 a).get i) →
      (∀ t, t < T → (c.thr t).wp own t c.mem fun _ m => ∃ mt, Q t mt ∧ View own t mt m) → Team.Always T φ c from
    H _ ⟨m0, p⟩ rfl (fun _ => rfl) (fun _ _ _ => rfl)
      (fun t ht => Thr.wp_mono (h t ht) fun _ m hm => ⟨m, hm, View.refl m⟩)
  intro N
  induction N using Nat.strong_induction_on with
  | _ N ih =>
    intro c hN hsz hun hwp
    refine ⟨c, ?_, ?_, ?_⟩
    · intro hd
      refine hφ c.mem hsz hun fun t ht => ?_
      have := hwp t ht
      rw [hd t ht] at this
      exact this
    · intro hd
      simp only [Team.Done, not_forall] at hd
      obtain ⟨t, ht, hr⟩ := hd
      have hw := hwp t ht
      cases hc : c.thr t with
      | ret x => exact absurd hc hr
      | fail => rw [hc] at hw; exact hw.elim
      | bar k => rw [hc] at hw; exact hw.elim
      | rd a i k => rw [hc] at hw; exact ⟨_, .rd c t a i k ht hc hw.2.1⟩
      | wr a i v k => rw [hc] at hw; exact ⟨_, .wr c t a i v k ht hc hw.2.1⟩
    · intro d hstep
      -- one access by a thread `t`
      cases hstep with
      | rd t a i k ht hc hi =>
        have hw := hwp t ht; rw [hc] at hw
        refine ih _ ?_ _ rfl hsz hun ?_
        · rw [← hN]
          refine Finset.sum_lt_sum (fun s _ => ?_) ⟨t, Finset.mem_range.2 ht, ?_⟩
          · by_cases hs : s = t
            · subst hs; simp only [Team.cont, if_pos, hc, Thr.cost]; omega
            · simp [Team.cont, hs]
          · simp only [Team.cont, if_pos, hc, Thr.cost]; omega
        · intro s hs
          by_cases hst : s = t
          · subst hst; simp only [Team.cont, if_pos]; exact hw.2.2
          · simp only [Team.cont, if_neg hst]; exact hwp s hs
      | wr t a i v k ht hc hi =>
        have hw := hwp t ht; rw [hc] at hw
        have hview : ∀ s, s ≠ t → View own s c.mem (c.mem.set a i v) := by
          intro s hst b
          refine ⟨Mem.set_size .., fun j hj => ?_⟩
          rw [Mem.set_get, if_neg]
          rintro ⟨rfl, rfl⟩
          rw [hw.1] at hj
          rcases hj with hj | hj
          · cases hj
          · exact hst (Option.some.inj hj).symm
        refine ih _ ?_ _ rfl ?_ ?_ ?_
        · rw [← hN]
          refine Finset.sum_lt_sum (fun s hs => ?_) ⟨t, Finset.mem_range.2 ht, ?_⟩
          · by_cases hst : s = t
            · subst hst; simp only [Team.cont, if_pos, hc, Thr.cost]; omega
            · simp only [Team.cont, if_neg hst]
              exact (Thr.cost_congr (hview s hst) (hwp s (Finset.mem_range.1 hs))).le
          · simp only [Team.cont, if_pos, hc, Thr.cost]; omega
        · intro b; rw [Mem.set_size]; exact hsz b
        · intro b j hj
          show ((c.mem.set a i v) b).get j = _
          rw [Mem.set_get, if_neg]
          · exact hun b j hj
          · rintro ⟨rfl, rfl⟩; exact hj t ht hw.1
        · intro s hs
          by_cases hst : s = t
          · subst hst; simp only [Team.cont, if_pos]; exact hw.2.2
          · simp only [Team.cont, if_neg hst]
            refine Thr.wp_mono (Thr.wp_congr (hview s hst) (hwp s hs)) ?_
            rintro _ m' ⟨m1, ⟨mt, hq, hv⟩, hv'⟩
            exact ⟨mt, hq, hv.trans hv'⟩
      | rdOob t a i k ht hc hi => have hw := hwp t ht; rw [hc] at hw; exact absurd hw.2.1 hi
      | wrOob t a i v k ht hc hi => have hw := hwp t ht; rw [hc] at hw; exact absurd hw.2.1 hi
      | bar k hT hc => have hw := hwp 0 hT; rw [hc 0 hT] at hw; exact hw.elim

theorem Schedule.lt {n T : ℕ} {sched : ℕ → List ℕ} (hs : Schedule n T sched) {t i : ℕ} (ht : t < T)
    (hi : i ∈ sched t) : i < n := by
  have : i ∈ (List.range T).flatMap sched := List.mem_flatMap.2 ⟨t, by simpa using ht, hi⟩
  simpa using hs.mem_iff.1 this

theorem Schedule.nodup {n T : ℕ} {sched : ℕ → List ℕ} (hs : Schedule n T sched) :
    ((List.range T).flatMap sched).Nodup := hs.nodup_iff.2 List.nodup_range

theorem Schedule.unique {n T : ℕ} {sched : ℕ → List ℕ} (hs : Schedule n T sched) {t s i : ℕ} (ht : t < T)
    (hs' : s < T) (hi : i ∈ sched t) (hj : i ∈ sched s) : t = s := by
  have h := hs.nodup
  rw [List.nodup_flatMap] at h
  by_contra hne
  have := @List.Pairwise.forall _ _ _ ⟨fun a b h => List.Disjoint.symm h⟩ h.2 _ (by simpa using ht) _
    (by simpa using hs') hne
  exact this hi hj

theorem Schedule.nodup_thread {n T : ℕ} {sched : ℕ → List ℕ} (hs : Schedule n T sched) {t : ℕ} (ht : t < T) :
    (sched t).Nodup := by
  have h := hs.nodup
  rw [List.nodup_flatMap] at h
  exact h.1 t (by simpa using ht)

theorem Schedule.exists {n T : ℕ} {sched : ℕ → List ℕ} (hs : Schedule n T sched) {i : ℕ} (hi : i < n) :
    ∃ t, t < T ∧ i ∈ sched t := by
  have : i ∈ (List.range T).flatMap sched := hs.mem_iff.2 (by simpa using hi)
  simpa using this

open Classical in
/-- the thread that runs iteration `i` -/
noncomputable def threadOf (T : ℕ) (sched : ℕ → List ℕ) (i : ℕ) : Option ℕ :=
  if h : ∃ t, t < T ∧ i ∈ sched t then some h.choose else none

theorem threadOf_eq {n T : ℕ} {sched : ℕ → List ℕ} (hs : Schedule n T sched) {t i : ℕ} (ht : t < T) :
    threadOf T sched i = some t ↔ i ∈ sched t := by
  unfold threadOf
  constructor
  · intro h
    split at h
    · next hx =>
      have := hx.choose_spec
      rw [Option.some.inj h] at this
      exact this.2
    · cases h
  · intro hi
    have hx : ∃ t, t < T ∧ i ∈ sched t := ⟨t, ht, hi⟩
    rw [dif_pos hx]
    exact congrArg some (hs.unique hx.choose_spec.1 ht hx.choose_spec.2 hi)

theorem threadOf_none {n T : ℕ} {sched : ℕ → List ℕ} (hs : Schedule n T sched) {i : ℕ} :
    threadOf T sched i = none ↔ ¬ i < n := by
  unfold threadOf
  split
  · next hx => simp only [reduceCtorEq, false_iff, not_not]; exact hs.lt hx.choose_spec.1 hx.choose_spec.2
  · next hx => simp only [true_iff]; exact fun hi => hx (hs.exists hi)

theorem wp_own_mono {own own' : ℕ → ℕ → Option ℕ} {t t' : ℕ} {p : Thr V α}
    (h1 : ∀ a i, own a i = some t → own' a i = some t')
    (h2 : ∀ a i, own a i = none → own' a i = none ∨ own' a i = some t') :
    ∀ {m : Mem V} {Q : α → Mem V → Prop}, p.wp own t m Q → p.wp own' t' m Q := by
  induction p with
  | ret x => intro m Q h; exact h
  | fail => intro m Q h; exact h
  | rd a i k ih =>
    intro m Q h
    exact ⟨h.1.elim (h2 a i) fun e => .inr (h1 a i e), h.2.1, ih _ h.2.2⟩
  | wr a i v k ih => intro m Q h; exact ⟨h1 a i h.1, h.2.1, ih h.2.2⟩
  | bar k ih => intro m Q h; exact h

/-- a worksharing loop whose iterations write different cells -/
theorem ompFor_always {ito : ℕ → ℕ → Option ℕ} {n T : ℕ} {sched : ℕ → List ℕ} (hs : Schedule n T sched)
    {m0 : Mem V} {body : ℕ → ℕ → Thr V Unit} (Q : ℕ → Mem V → Prop) (hito : ∀ a j i, ito a j = some i → i < n)
    (h : ∀ t i, t < T → i < n → (body t i).wp ito i m0 fun _ m => Q i m) {φ : Mem V → Prop}
    (hφ : ∀ m : Mem V, (∀ a, (m a).size = (m0 a).size) →
      (∀ a j, ito a j = none → (m a).get j = (m0 a).get j) →
      (∀ i, i < n → ∃ mi, Q i mi ∧ View ito i mi m) → φ m) :
    ompParallel T (ompFor sched body) m0 φ := by
  let own : ℕ → ℕ → Option ℕ := fun a j => (ito a j).bind (threadOf T sched)
  have hnone : ∀ a j, own a j = none ↔ ito a j = none := by
    intro a j
    simp only [own]
    cases e : ito a j with
    | none => simp
    | some i =>
      simp only [Option.bind_some, reduceCtorEq, iff_false]
      rw [threadOf_none hs]; exact not_not.2 (hito a j i e)
  have hsome : ∀ a j t, t < T → (own a j = some t ↔ ∃ i, ito a j = some i ∧ i ∈ sched t) := by
    intro a j t ht
    simp only [own]
    cases e : ito a j with
    | none => simp
    | some i => simp [threadOf_eq hs ht]
  refine always_of_wp (own := own)
    (fun t m => (∀ a, (m a).size = (m0 a).size) ∧ ∀ i, i ∈ sched t → ∃ mi, Q i mi ∧ View ito i mi m) ?_ ?_
  · intro t ht
    unfold ompFor
    refine Thr.wp_forL (fun done _ m => (∀ a, (m a).size = (m0 a).size) ∧
      (∀ a j, (∀ i ∈ done, ito a j ≠ some i) → (m a).get j = (m0 a).get j) ∧
      ∀ i, i ∈ done → ∃ mi, Q i mi ∧ View ito i mi m) (sched t) [] () m0
      ⟨fun _ => rfl, fun _ _ _ => rfl, fun i hi => absurd hi (by simp)⟩ ?_ ?_
    · rintro i - m done rest e ⟨hsz, hun, hdone⟩
      simp only [List.nil_append] at e
      have hnd := hs.nodup_thread ht
      have hit : i ∈ sched t := by rw [e]; simp
      have hin := hs.lt ht hit
      rw [e] at hnd
      have hind : i ∉ done := by
        intro hc
        have := List.nodup_append.1 hnd
        exact this.2.2 i hc i (by simp) rfl
      have hv : View ito i m0 m := by
        intro a
        refine ⟨hsz a, fun j hj => hun a j fun i' hi' e' => ?_⟩
        rcases hj with hj | hj
        · rw [hj] at e'; cases e'
        · rw [hj] at e'; exact hind (Option.some.inj e' ▸ hi')
      have hw := Thr.wp_frame (Thr.wp_congr hv (h t i ht hin)) (Frame.refl m)
      refine Thr.wp_mono (wp_own_mono (own' := own) (t' := t) ?_ ?_ hw) ?_
      · intro a j hj; exact (hsome a j t ht).2 ⟨i, hj, hit⟩
      · intro a j hj; exact .inl ((hnone a j).2 hj)
      · rintro _ m' ⟨⟨mi, hq, hv'⟩, hf⟩
        refine ⟨fun a => (hf a).1.trans (hsz a), ?_, ?_⟩
        · intro a j hj
          rw [(hf a).2 j (hj i (by simp))]
          exact hun a j fun i' hi' => hj i' (by simp [hi'])
        · intro i' hi'
          rcases List.mem_append.1 hi' with hi' | hi'
          · obtain ⟨mi', hq', hv''⟩ := hdone i' hi'
            refine ⟨mi', hq', hv''.trans fun a => ⟨(hf a).1, fun j hj => (hf a).2 j ?_⟩⟩
            rcases hj with hj | hj
            · rw [hj]; simp
            · rw [hj]; intro e'; exact hind (Option.some.inj e' ▸ hi')
          · rw [List.mem_singleton] at hi'; subst hi'; exact ⟨mi, hq, hv'⟩
    · rintro - m ⟨hsz, _, hd⟩
      exact ⟨hsz, by simpa using hd⟩
  · intro m hsz hun hq
    refine hφ m hsz ?_ ?_
    · intro a j hj
      refine hun a j fun t _ e => ?_
      rw [(hnone a j).2 hj] at e; cases e
    · intro i hi
      obtain ⟨t, ht, hit⟩ := hs.exists hi
      obtain ⟨mt, ⟨hsz', hq'⟩, hv⟩ := hq t ht
      obtain ⟨mi, hqi, hvi⟩ := hq' i hit
      refine ⟨mi, hqi, hvi.trans fun a => ⟨(hv a).1, fun j hj => (hv a).2 j ?_⟩⟩
      rcases hj with hj | hj
      · exact .inl ((hnone a j).2 hj)
      · exact .inr ((hsome a j t ht).2 ⟨i, hj, hit⟩)

/-- only the threads of the team matter -/
theorem Team.Always.congr {T : ℕ} {φ : Mem V → Prop} {c : Team V} (h : Team.Always T φ c) :
    ∀ {c' : Team V}, c'.mem = c.mem → (∀ t, t < T → c'.thr t = c.thr t) → Team.Always T φ c' := by
  have aux : ∀ (c c' d' : Team V), c'.mem = c.mem → (∀ t, t < T → c'.thr t = c.thr t) → c'.Step T d' →
      ∃ d, c.Step T d ∧ d'.mem = d.mem ∧ ∀ t, t < T → d'.thr t = d.thr t := by
    intro c c' d' hm ht hstep
    cases hstep with
    | rd t a i k h1 h2 h3 =>
      rw [hm] at h3; rw [ht t h1] at h2
      refine ⟨_, .rd c t a i k h1 h2 h3, hm, fun s hs => ?_⟩
      simp only [Team.cont, hm, ht s hs]
    | wr t a i v k h1 h2 h3 =>
      rw [hm] at h3; rw [ht t h1] at h2
      refine ⟨_, .wr c t a i v k h1 h2 h3, by simp only [hm], fun s hs => ?_⟩
      simp only [Team.cont, ht s hs]
    | rdOob t a i k h1 h2 h3 =>
      rw [hm] at h3; rw [ht t h1] at h2
      refine ⟨_, .rdOob c t a i k h1 h2 h3, hm, fun s hs => ?_⟩
      simp only [Team.cont, ht s hs]
    | wrOob t a i v k h1 h2 h3 =>
      rw [hm] at h3; rw [ht t h1] at h2
      refine ⟨_, .wrOob c t a i v k h1 h2 h3, hm, fun s hs => ?_⟩
      simp only [Team.cont, ht s hs]
    | bar k h1 h2 =>
      refine ⟨_, .bar c k h1 fun t h => (ht t h).symm.trans (h2 t h), hm, fun s hs => ?_⟩
      simp only [if_pos hs]
  induction h with
  | mk c h1 h2 h3 ih =>
    intro c' hm ht
    refine ⟨c', ?_, ?_, ?_⟩
    · intro hd; rw [hm]; exact h1 fun t h => (ht t h).symm.trans (hd t h)
    · intro hd
      obtain ⟨d, hd'⟩ := h2 fun hd' => hd fun t h => (ht t h).trans (hd' t h)
      obtain ⟨d', hd'', _⟩ := aux c' c d hm.symm (fun t h => (ht t h).symm) hd'
      exact ⟨d', hd''⟩
    · intro d' hstep
      obtain ⟨d, hs, h1, h2⟩ := aux c c' d' hm ht hstep
      exact ih d hs h1 h2

/-- two phases separated by a barrier -/
theorem ompParallel_bar {T : ℕ} {m : Mem V} {p q : ℕ → Thr V Unit} {φ ψ : Mem V → Prop} (hT : 0 < T)
    (hp : ompParallel T p m φ) (hq : ∀ m, φ m → ompParallel T q m ψ) :
    ompParallel T (fun t => p t >>= fun _ => Thr.barrier >>= fun _ => q t) m ψ := by
  unfold ompParallel at *
  have hret : ∀ t (P : Thr V Unit), (P >>= fun _ => Thr.barrier >>= fun _ => q t) =
      P.bind fun _ => .bar (q t) := fun _ _ => rfl
  have hcont : ∀ (c : Team V) t (P : Thr V Unit),
      Team.cont ⟨c.mem, fun s => (c.thr s).bind fun _ => .bar (q s)⟩ t (P.bind fun _ => .bar (q t)) =
      ⟨(c.cont t P).mem, fun s => ((c.cont t P).thr s).bind fun _ => .bar (q s)⟩ := by
    intro c t P
    simp only [Team.cont, Team.mk.injEq, true_and]
    funext s
    by_cases h : s = t
    · subst h; simp
    · simp [h]
  suffices H : ∀ c : Team V, Team.Always T φ c →
      Team.Always T ψ ⟨c.mem, fun t => (c.thr t).bind fun _ => .bar (q t)⟩ from H _ hp
  intro c hc
  induction hc with
  | mk c h1 h2 h3 ih =>
    refine ⟨_, ?_, ?_, ?_⟩
    · intro hd
      have h := hd 0 hT
      dsimp only at h
      cases hc : c.thr 0 <;> rw [hc] at h <;> simp only [Thr.bind] at h <;> cases h
    · intro _
      by_cases hd : c.Done T
      · refine ⟨_, .bar _ q hT fun t ht => ?_⟩
        show (c.thr t).bind _ = _
        rw [hd t ht]; rfl
      · obtain ⟨d, hstep⟩ := h2 hd
        cases hstep with
        | rd t a i k ht hc hi => exact ⟨_, .rd _ t a i _ ht (by simp only [hc, Thr.bind]; rfl) hi⟩
        | wr t a i v k ht hc hi => exact ⟨_, .wr _ t a i v _ ht (by simp only [hc, Thr.bind]; rfl) hi⟩
        | rdOob t a i k ht hc hi => exact ⟨_, .rdOob _ t a i _ ht (by simp only [hc, Thr.bind]; rfl) hi⟩
        | wrOob t a i v k ht hc hi => exact ⟨_, .wrOob _ t a i v _ ht (by simp only [hc, Thr.bind]; rfl) hi⟩
        | bar k hT hc =>
          exact ⟨_, .bar _ (fun t => (k t).bind fun _ => .bar (q t)) hT fun t ht => by simp only [hc t ht, Thr.bind]⟩
    · intro d hstep
      generalize hc' : (⟨c.mem, fun t => (c.thr t).bind fun _ => .bar (q t)⟩ : Team V) = c' at hstep
      cases hstep with
      | rd t a i k ht hc hi =>
        subst hc'; dsimp only at hc hi
        cases e : c.thr t <;> rw [e] at hc <;> simp only [Thr.bind] at hc <;> try (cases hc; done)
        next a' i' k' =>
          cases hc
          have := ih _ (.rd c t a i k' ht e hi)
          rw [← hcont] at this
          exact this
      | wr t a i v k ht hc hi =>
        subst hc'; dsimp only at hc hi
        cases e : c.thr t <;> rw [e] at hc <;> simp only [Thr.bind] at hc <;> try (cases hc; done)
        next a' i' v' k' =>
          cases hc
          have := ih _ (.wr c t a i v k' ht e hi)
          have e2 := congrArg Team.thr (hcont c t k')
          dsimp only at e2 ⊢
          simp only [Team.cont] at this e2 ⊢
          rw [e2]; exact this
      | rdOob t a i k ht hc hi =>
        subst hc'; dsimp only at hc hi
        cases e : c.thr t <;> rw [e] at hc <;> simp only [Thr.bind] at hc <;> try (cases hc; done)
        next a' i' k' =>
          cases hc
          have := ih _ (.rdOob c t a i k' ht e hi)
          rw [← hcont] at this
          exact this
      | wrOob t a i v k ht hc hi =>
        subst hc'; dsimp only at hc hi
        cases e : c.thr t <;> rw [e] at hc <;> simp only [Thr.bind] at hc <;> try (cases hc; done)
        next a' i' v' k' =>
          cases hc
          have := ih _ (.wrOob c t a i v k' ht e hi)
          rw [← hcont] at this
          exact this
      | bar k hT' hc =>
        subst hc'; dsimp only at hc
        by_cases hd : c.Done T
        · refine (hq c.mem (h1 hd)).congr rfl fun t ht => ?_
          have := hc t ht
          rw [hd t ht] at this
          show (if t < T then k t else _) = q t
          rw [if_pos ht]
          exact (Thr.bar.inj this).symm
        · have hrb : ∀ t, t < T → c.thr t = .ret () ∨ ∃ k', c.thr t = .bar k' := by
            intro t ht
            have := hc t ht
            cases e : c.thr t <;> rw [e] at this <;> simp only [Thr.bind] at this <;> try (cases this; done)
            · exact .inl rfl
            · exact .inr ⟨_, rfl⟩
          obtain ⟨d, hstep⟩ := h2 hd
          have hbad : ∀ t, t < T → ∀ P : Thr V Unit, c.thr t = P → (P = .ret () ∨ ∃ k', P = .bar k') :=
            fun t ht P e => e ▸ hrb t ht
          cases hstep with
          | rd t a i k ht hc hi => rcases hbad t ht _ hc with h | ⟨_, h⟩ <;> cases h
          | wr t a i v k ht hc hi => rcases hbad t ht _ hc with h | ⟨_, h⟩ <;> cases h
          | rdOob t a i k ht hc hi => rcases hbad t ht _ hc with h | ⟨_, h⟩ <;> cases h
          | wrOob t a i v k ht hc hi => rcases hbad t ht _ hc with h | ⟨_, h⟩ <;> cases h
          | bar k' hT'' hc' =>
            refine (ih _ (.bar c k' hT hc')).congr rfl fun t ht => ?_
            have := hc t ht
            rw [hc' t ht] at this
            show (if t < T then k t else _) = (if t < T then k' t else _).bind _
            rw [if_pos ht, if_pos ht]
            exact (Thr.bar.inj this).symm

end Lis
