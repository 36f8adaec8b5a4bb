import Verif.Base.C
import Mathlib.Data.Nat.Notation

/-!
# Message passing processes (the MPI subset used by the matrix-vector product)

A process is the code of one rank: it computes (undefined behaviour is `fail`), starts sends and waits for
receives.  A configuration holds the process of every rank and, for every ordered pair of ranks, the messages
sent and not yet received, in order (MPI's non-overtaking rule: messages between two ranks with the same tag and
communicator are received in the order sent).  A schedule is any choice, at each step, of a rank that can move.

What is and is not modelled:
* `MPI_Isend` puts the message on the channel and does not block; `MPI_Waitall` on send requests is a no-op.  (Every
  rank posts all its receives before it waits for its sends, so an implementation that delays the completion of a
  send until the receive is posted adds no deadlock.)
* `MPI_Irecv` from a list of ranks followed by `MPI_Waitall` is `recvAll`: it can move when every one of them has
  a message under way and takes the oldest one from each.  Two receives from the same rank in one group do not occur
  in the code and make the process fail.
* `MPI_Alltoall` is a message from every rank to every rank, then `recvAll`.
* a message longer than the receive, or of another type, makes the receiver fail.
-/

namespace Lis

variable {M α β σ : Type}

/-- the remaining code of a rank; `M` = message contents -/
inductive Proc (M α : Type) : Type where
  /-- finished with result `a` -/
  | ret (a : α)
  /-- undefined behaviour or non-termination -/
  | fail
  /-- `MPI_Isend` of `m` to rank `dst` -/
  | send (dst : ℕ) (m : M) (k : Proc M α)
  /-- `MPI_Irecv` from each of `srcs`, `MPI_Waitall` -/
  | recvAll (srcs : List ℕ) (k : List M → Proc M α)

namespace Proc

/-- sequential composition -/
def bind : Proc M α → (α → Proc M β) → Proc M β
  | ret a, f => f a
  | fail, _ => fail
  | send d m k, f => send d m (k.bind f)
  | recvAll s k, f => recvAll s fun ms => (k ms).bind f

instance : Monad (Proc M) where
  pure := ret
  bind := bind

/-- local code -/
def lift : Option α → Proc M α
  | some a => ret a
  | none => fail

/-- run `f` for `k` consecutive indices starting at `i` -/
def iter (f : ℕ → σ → Proc M σ) : ℕ → ℕ → σ → Proc M σ
  | 0, _, s => ret s
  | k + 1, i, s => (f i s).bind (iter f k (i + 1))

/-- `for(i=lo;i<hi;i++) s = f(i,s);` where the body communicates -/
def loop (lo hi : ℕ) (s : σ) (f : ℕ → σ → Proc M σ) : Proc M σ := iter f (hi - lo) lo s

end Proc

/-- all ranks and all channels; `chan s d` = messages from `s` to `d` under way, oldest first -/
structure Net (M α : Type) where
  proc : ℕ → Proc M α
  chan : ℕ → ℕ → List M

/-- one step of rank `r` among ranks `0..P-1`; `none`: rank `r` cannot move.  A send to a rank that does not exist
and a group of receives with a repeated or non-existing source make the rank fail. -/
def Net.stepRank (P : ℕ) (c : Net M α) (r : ℕ) : Option (Net M α) :=
  match c.proc r with
  | .ret _ => none
  | .fail => none
  | .send d m k =>
    if d < P then
      some ⟨fun s => if s = r then k else c.proc s,
        fun s t => if s = r ∧ t = d then c.chan s t ++ [m] else c.chan s t⟩
    else some ⟨fun s => if s = r then .fail else c.proc s, c.chan⟩
  | .recvAll srcs k =>
    if srcs.Nodup ∧ ∀ s ∈ srcs, s < P then
      if ∀ s ∈ srcs, c.chan s r ≠ [] then
        some ⟨fun s => if s = r then k (srcs.filterMap fun s => (c.chan s r).head?) else c.proc s,
          fun s t => if t = r ∧ s ∈ srcs then (c.chan s t).tail else c.chan s t⟩
      else none
    else some ⟨fun s => if s = r then .fail else c.proc s, c.chan⟩

/-- one step of some rank -/
def Net.Step (P : ℕ) (c d : Net M α) : Prop := ∃ r, r < P ∧ c.stepRank P r = some d

/-- `j` steps, in any order of the ranks -/
inductive Net.Steps (P : ℕ) : ℕ → Net M α → Net M α → Prop where
  | refl (c) : Net.Steps P 0 c c
  | head {j c d e} : Net.Step P c d → Net.Steps P j d e → Net.Steps P (j + 1) c e

/-- no rank can move -/
def Net.Stuck (P : ℕ) (c : Net M α) : Prop := ∀ d, ¬ c.Step P d

/-- initial configuration: no message under way -/
def Net.start (p : ℕ → Proc M α) : Net M α := ⟨p, fun _ _ => []⟩

/-- The specification "whatever the schedule": started with no message under way, the ranks cannot run forever
(at most `K` steps in any order), and whenever no rank can move any more, every rank has returned normally — no
deadlock, no undefined behaviour —, its result satisfies `φ`, and no message is left over. -/
def AllSchedules (P : ℕ) (p : ℕ → Proc M α) (φ : ℕ → α → Prop) : Prop :=
  ∃ K, ∀ j d, Net.Steps P j (.start p) d → j ≤ K ∧
    (d.Stuck P → (∀ r, r < P → ∃ a, d.proc r = .ret a ∧ φ r a) ∧ ∀ s t, d.chan s t = [])

end Lis
