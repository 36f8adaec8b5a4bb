import Verif.Model.Precon
import Verif.Props.Machine
import Verif.Props.Matvec1
import Verif.Props.CsrSolve
import Mathlib.Algebra.BigOperators.Fin

/-! Building array-level kits out of verified kernels -/

namespace Lis
open Finset
variable {R S : Type}

/-- the call `f(x,y)` replaces `y` by `m(x)` and changes no other vector -/
def MapsVec (n : ℕ) (f : ℕ → ℕ → Vecs R → Option (Vecs R)) (m : (Fin n → R) → Fin n → R) : Prop :=
  ∀ x y (h : Vecs R), x ≠ y → h.Good n →
    Ok (f x y h) fun h' => h'.Good n ∧ h'.vecs n = Function.update (h.vecs n) y (m (h.vecs n x))

theorem good_set {n : ℕ} {h : Vecs R} (hg : h.Good n) {y : ℕ} {v : Arr R} (hv : v.size = (h y).value.size) :
    Vecs.Good n (fun w => if w = y then ⟨(h y).n, v⟩ else h w) := by
  intro w
  by_cases hw : w = y
  · simp only [if_pos hw, hv]; exact hg y
  · simp only [if_neg hw]; exact hg w

theorem vecs_set {n : ℕ} {h : Vecs R} {y : ℕ} {v : Arr R} :
    Vecs.vecs n (fun w => if w = y then ⟨(h y).n, v⟩ else h w) =
      Function.update (h.vecs n) y fun i => v.get i := by
  funext w i
  by_cases hw : w = y
  · subst hw; simp [Vecs.vecs]
  · simp [Vecs.vecs, hw]

theorem onArr_maps {n : ℕ} {f : Arr R → Arr R → Option (Arr R)} {m : (Fin n → R) → Fin n → R}
    (hf : ∀ x y : Arr R, n ≤ x.size → n ≤ y.size → Ok (f x y) fun y' => y'.size = y.size ∧
      ∀ i : Fin n, y'.get i = m (fun j => x.get j) i) : MapsVec n (onArr f) m := by
  intro x y h _ hg
  unfold onArr
  rw [Ok_bind]
  refine (hf _ _ (hg x).2 (hg y).2).mono ?_
  rintro v ⟨h1, h2⟩
  rw [Ok_pure]
  refine ⟨good_set hg h1, ?_⟩
  rw [vecs_set]
  congr 1
  funext i
  exact h2 i

theorem maps_of_assigned {n : ℕ} {f : ℕ → ℕ → Vecs R → Option (Err × Vecs R)} {m : (Fin n → R) → Fin n → R}
    {g : Vecs R → ℕ → ℕ → R}
    (hf : ∀ x y (h : Vecs R), x ≠ y → h.Good n → Ok (f x y h) fun r => r.1 = .success ∧ Assigned h y (g h x) r.2)
    (hm : ∀ (h : Vecs R) x (i : Fin n), g h x i = m (h.vecs n x) i) :
    MapsVec n (fun x y h => (f x y h).map Prod.snd) m := by
  intro x y h hxy hg
  refine (Ok_of_assigned hg (hf x y h hxy hg)).mono ?_
  rintro h' ⟨h1, h2⟩
  refine ⟨h1, ?_⟩
  rw [h2]
  congr 1
  funext i
  exact hm h x i

theorem Vecs.Good.wf {n : ℕ} {h : Vecs R} (hg : h.Good n) (v : ℕ) : h.WF v := by
  unfold Vecs.WF; rw [(hg v).1]; exact (hg v).2

theorem psolveNone_maps (n : ℕ) : MapsVec n (psolveNone (R := R)) id :=
  maps_of_assigned (f := vectorCopy) (g := fun h x => h.el x)
    (fun x y h _ hg => vectorCopy_spec h x y (hg.wf x) (hg.wf y) (by rw [(hg x).1, (hg y).1])) (fun _ _ _ => rfl)

theorem psolveJacobi_assigned [Mul R] (conj : R → R) {n : ℕ} {d : Arr R} (hd : n ≤ d.size) (b x : ℕ) {h : Vecs R}
    (hg : h.Good n) : Ok (psolveJacobi conj n d b x h) fun h' => Assigned h x (fun i => h.el b i * conj (d.get i)) h' := by
  unfold psolveJacobi
  have hb := hg.wf b
  have hx := hg.wf x
  have hn := (hg x).1
  have hnb := (hg b).1
  refine Ok_elem (fun i => h.el b i * conj (d.get i)) hn (hg x).2 (fun i h' hi hI => ?_) (fun h' hA => hA)
  rw [vrd_eq hI (by omega) hb]
  simp only [Option.bind_eq_bind, Option.bind_some, Arr.rd, if_pos (show i < d.size by omega)]
  rfl

theorem psolveJacobi_maps [Mul R] (conj : R → R) {n : ℕ} {d : Arr R} (hd : n ≤ d.size) :
    MapsVec n (psolveJacobi conj n d) fun v i => v i * conj (d.get i) := by
  intro x y h _ hg
  refine (psolveJacobi_assigned conj hd x y hg).mono ?_
  intro h' a
  exact ⟨a.good hg, a.vecs hg⟩

/-- a call that produces the unique solution of a relation computes a function -/
theorem maps_of_rel {n : ℕ} {f : ℕ → ℕ → Vecs R → Option (Vecs R)} {rel : (Fin n → R) → (Fin n → R) → Prop}
    (hu : ∀ r y y', rel y r → rel y' r → y = y')
    (hf : ∀ x y (h : Vecs R), x ≠ y → h.Good n → Ok (f x y h) fun h' => h'.Good n ∧
      (∀ w, w ≠ y → h'.vecs n w = h.vecs n w) ∧ rel (h'.vecs n y) (h.vecs n x)) [Inhabited R] :
    ∃ m, (∀ r, rel (m r) r) ∧ MapsVec n f m := by
  have ex : ∀ r, ∃ y, rel y r := by
    intro r
    obtain ⟨h', -, -, -, h3⟩ := hf 0 1 (fun _ => ⟨n, ⟨n, fun i => if hi : i < n then r ⟨i, hi⟩ else default⟩⟩) (by decide)
      (fun v => ⟨rfl, le_rfl⟩)
    refine ⟨h'.vecs n 1, ?_⟩
    have : Vecs.vecs n (fun _ => ⟨n, ⟨n, fun i => if hi : i < n then r ⟨i, hi⟩ else default⟩⟩) 0 = r := by
      funext i; simp [Vecs.vecs]
    rw [this] at h3
    exact h3
  choose m hm using ex
  refine ⟨m, hm, ?_⟩
  intro x y h hxy hg
  refine (hf x y h hxy hg).mono ?_
  rintro h' ⟨h1, h2, h3⟩
  refine ⟨h1, ?_⟩
  funext w
  by_cases hw : w = y
  · subst hw; rw [Function.update_self]; exact hu _ _ _ h3 (hm _)
  · rw [Function.update_of_ne hw]; exact h2 w hw

theorem OnlyChanged.good {n : ℕ} {h h' : Vecs R} {x : ℕ} (hg : h.Good n) (c : OnlyChanged h x n h') : h'.Good n := by
  intro v
  by_cases hv : v = x
  · subst hv
    rw [c.len, c.size]
    exact hg v
  · rw [c.other v hv]; exact hg v

theorem OnlyChanged.vecs {n : ℕ} {h h' : Vecs R} {x : ℕ} (c : OnlyChanged h x n h') (w : ℕ) (hw : w ≠ x) :
    h'.vecs n w = h.vecs n w := by
  unfold Vecs.vecs; rw [c.other w hw]

end Lis
