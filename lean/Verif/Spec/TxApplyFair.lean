import Verif.Model.TxApply
/-!
# Infinite executions of the transaction path, and fairness
-/

namespace KP2P
namespace TxA

/-- An infinite execution. -/
def Exec (σ : Nat → State) (ev : Nat → Label) : Prop := ∀ n, step (σ n) (ev n) = some (σ (n + 1))

/-- The step concerns call `r`: a worker takes it up, submits its transaction, the chain answers, or the caller finds its
answer. -/
def About (r : Nat) (s : State) : Label → Prop
  | .work i => ∃ tx, s.queue[i]? = some (r, tx)
  | .submit i => ∃ tx st, s.jobs[i]? = some ⟨r, tx, st⟩
  | .rpcReturn i _ => ∃ tx st, s.jobs[i]? = some ⟨r, tx, st⟩
  | .callerReturns r' => r' = r
  | _ => False

/-- Call `r` is not neglected for ever: if from some point on a step that concerns it is always possible, one is made. -/
def FairCall (σ : Nat → State) (ev : Nat → Label) (r : Nat) : Prop :=
  ∀ n, (∀ m, n ≤ m → ∃ x, About r (σ m) x ∧ (step (σ m) x).isSome = true) → ∃ m, n ≤ m ∧ About r (σ m) (ev m)

end TxA
end KP2P
