import Verif.Model.Solver2
import Verif.Lemmas.SolverRes

namespace Lis
variable {R S : Type} {n : ℕ}
section
variable [Add R] [Mul R] [Star R]

theorem Ok_pfor {K : Kit R S n} {σ : Type} {body : ℕ → σ → Prog R S σ} (I : ℕ → σ → MSt R S n → Prop) :
    ∀ (k i : ℕ) (st : σ) (s : MSt R S n) {Q : σ × MSt R S n → Prop}, I i st s →
      (∀ j st s, i ≤ j → j < i + k → I j st s → Ok ((body j st).run K s) fun r => I (j + 1) r.1 r.2) →
      (∀ st s, I (i + k) st s → Q (st, s)) →
      Ok ((pfor body k i st).run K s) Q := by
  intro k
  induction k with
  | zero => intro i st s Q hI hb hq; simpa [pfor] using hq st s hI
  | succ k ih =>
    intro i st s Q hI hb hq
    simp only [pfor, Prog.run_bind, Ok_obind]
    refine (hb i st s (by omega) (by omega) hI).mono ?_
    rintro ⟨st', s'⟩ h
    refine ih (i + 1) st' s' h (fun j st s h1 h2 => hb j st s (by omega) (by omega)) fun st s h => hq st s ?_
    rwa [show i + (k + 1) = i + 1 + k by omega]

theorem Ok_pbind {K : Kit R S n} {α β : Type} {p : Prog R S α} {f : α → Prog R S β} {s : MSt R S n}
    {Q : β × MSt R S n → Prop} (h : Ok (p.run K s) fun r => Ok ((f r.1).run K r.2) Q) :
    Ok ((p >>= f).run K s) Q := by
  rw [Prog.run_bind, Ok_obind]; exact h

theorem Ok_vop1 {K : Kit R S n} {op : VOp R} {s : MSt R S n} {Q : Unit × MSt R S n → Prop}
    (h : ∀ w, w = op.val K s.h → Q ((), ⟨Function.update s.h op.dst w, s.hist⟩)) :
    Ok ((Prog.vop op (.ret ()) : Prog R S Unit).run K s) Q := by
  have := h _ rfl
  cases op <;> exact ⟨_, rfl, this⟩

theorem Ok_aUse {K : Kit R S n} {α : Type} {a : Arr (Option R)} {i : ℕ} {f : R → Prog R S α} {s : MSt R S n}
    {Q : α × MSt R S n → Prop} (hi : i < a.size) (h0 : a.get i ≠ none)
    (h : ∀ v, a.get i = some v → Ok ((f v).run K s) Q) : Ok ((aUse a i >>= f).run K s) Q := by
  obtain ⟨v, hv⟩ := Option.ne_none_iff_exists'.1 h0
  have : (aUse a i : Prog R S R) = .ret v := by simp [aUse, Arr.rd, hi, hv, Prog.ofOption]
  rw [this]
  exact h v hv

theorem Ok_aRd {K : Kit R S n} {α β : Type} {a : Arr β} {i : ℕ} {f : β → Prog R S α} {s : MSt R S n}
    {Q : α × MSt R S n → Prop} (hi : i < a.size) (h : Ok ((f (a.get i)).run K s) Q) :
    Ok ((aRd a i >>= f).run K s) Q := by
  have : (aRd a i : Prog R S β) = .ret (a.get i) := by simp [aRd, Arr.rd, hi, Prog.ofOption]
  rw [this]
  exact h

theorem Ok_aWr {K : Kit R S n} {α β : Type} {a : Arr β} {i : ℕ} {v : β} {f : Arr β → Prog R S α} {s : MSt R S n}
    {Q : α × MSt R S n → Prop} (hi : i < a.size) (h : Ok ((f (a.set i v)).run K s) Q) :
    Ok ((aWr a i v >>= f).run K s) Q := by
  have : (aWr a i v : Prog R S (Arr β)) = .ret (a.set i v) := by simp [aWr, Arr.wr, hi, Prog.ofOption]
  rw [this]
  exact h

end
end Lis
