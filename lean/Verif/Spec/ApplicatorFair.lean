import Verif.Spec.Applicator
/-!
# Infinite executions of the applicator, fairness and rest
-/

namespace KP2P
namespace App

/-- An infinite execution: the states `σ 0, σ 1, …` with the steps `ev 0, ev 1, …` between them. -/
def Exec (o : AppOpts) (σ : Nat → AState) (ev : Nat → Label) : Prop := ∀ n, step o (σ n) (ev n) = some (σ (n + 1))

/-- Weak fairness towards a kind of step: if from some point on a step of this kind is always possible, then one is taken. -/
def FairTo (o : AppOpts) (σ : Nat → AState) (ev : Nat → Label) (C : Label → Prop) : Prop :=
  ∀ n, (∀ m, n ≤ m → ∃ x, C x ∧ (step o (σ m) x).isSome = true) → ∃ m, n ≤ m ∧ C (ev m)

/-- The kinds of steps. The first three are the channels of the main loop; `work` is a worker becoming free, `rpc` the chain
answering, `delay` and `retry` timers firing, `caller` a waiting caller waking up. -/
inductive Kind where
  | newBlock | tryBlock | status | work | rpc | delay | retry | caller
  deriving DecidableEq, Repr

def Kind.has : Kind → Label → Prop
  | .newBlock, .newBlock _ => True
  | .tryBlock, .tryBlock _ => True
  | .status, .status _ => True
  | .work, .work _ => True
  | .rpc, .rpcReturn _ _ => True
  | .delay, .delayDone _ => True
  | .delay, .delayTimeout _ => True
  | .retry, .retryDue _ => True
  | .caller, .callerReturns _ => True
  | _, _ => False

/-- Nobody calls, the chain announces nothing, and its verdicts are not the block-state error (after which a block is
resubmitted at once, C91). -/
def Quiet : Label → Prop
  | .applyBlock _ => False
  | .forkHeads _ _ => False
  | .broadcast _ _ => False
  | .rpcReturn _ e => errIs e .blockState = false
  | _ => True

/-- A fair quiet execution: time goes on for ever, and no kind of step is neglected for ever. -/
structure FairQuiet (o : AppOpts) (σ : Nat → AState) (ev : Nat → Label) : Prop where
  exec : Exec o σ ev
  quiet : ∀ n, Quiet (ev n)
  time : ∀ T : Int, ∃ n, T ≤ (σ n).now
  fair : ∀ k : Kind, FairTo o σ ev k.has

/-- Nothing is under way: no new block queued, no wake-up under way or scheduled, no application running, no caller with an
answer to fetch. -/
structure AtRest (s : AState) : Prop where
  newQ : s.newQ = []
  tries : s.tries = []
  retries : s.retries = []
  apps : s.apps = []
  callers : ∀ r ∈ s.waiting, r ∉ answered s.log

end App
end KP2P
