import Verif.Model.Workers
/-!
# Infinite executions of the worker pool, and fairness
-/

namespace KP2P
namespace Pool

/-- An infinite execution. -/
def Exec (σ : Nat → State) (ev : Nat → Label) : Prop := ∀ n, step (σ n) (ev n) = some (σ (n + 1))

/-- The step is one of worker `i`, or the end of its call. -/
def Of (i : Nat) : Label → Prop
  | .look j => j = i
  | .grabBlock j => j = i
  | .grabTx j => j = i
  | .reply j => j = i
  | _ => False

/-- Worker `i` is not held up for ever: if from some point on it can always make a step, it makes one. In particular its
calls end. -/
def FairWorker (σ : Nat → State) (ev : Nat → Label) (i : Nat) : Prop :=
  ∀ n, (∀ m, n ≤ m → ∃ x, Of i x ∧ (step (σ m) x).isSome = true) → ∃ m, n ≤ m ∧ Of i (ev m)

/-- The blocks taken up, oldest first. -/
def blocksBegun (log : List Ev) : List Nat := log.reverse.filterMap fun | .block n => some n | _ => none

/-- The transactions taken up, oldest first. -/
def txsTaken (log : List Ev) : List Nat := log.reverse.filterMap fun | .tx n => some n | _ => none

/-- The blocks sent to the workers in a sequence of steps, in order. -/
def blocksSent (ls : List Label) : List Nat := ls.filterMap fun | .sendBlock n => some n | _ => none

/-- The transactions sent to the workers in a sequence of steps, in order. -/
def txsSent (ls : List Label) : List Nat := ls.filterMap fun | .sendTx n => some n | _ => none

end Pool
end KP2P
