import Verif.Model.SyncRun
import Verif.Spec.CatchUp
/-!
# Vocabulary for C132: executions of a session together with the rest of the node
-/

namespace KP2P
namespace Spec
namespace SyncRun
open KP2P.PeerConn KP2P.PeerRPC KP2P.Peering KP2P.SyncRun KP2P.Spec.CatchUp

/-- States reached by a session and the rest of a node, from any state of the rest. -/
inductive Reached (o : Opts) (ao : AppOpts) : State → Prop where
  | init (s : Link.State) : Reached o ao (init s)
  | step {s s' : State} {l : Label} : Reached o ao s → step o ao s l = some s' → Reached o ao s'

/-- After this result of a block the next one is handed over: success, or irreversible and nothing worse. -/
def GoesOn (r : Option Err) : Prop :=
  r = none ∨ ∃ e, r = some e ∧ e.is .blockIrreversibility = true ∧ e.is .localRPCTimeout = false ∧ e.is .forkBomb = false

/-- The steps of the session within a round. -/
def Own : Label → Prop
  | .hand => True
  | .back _ => True
  | .finish => True
  | _ => False

/-- The session is inside of a call of `ApplyBlock`. -/
def InCall (s : State) : Prop := ∃ r b todo, s.phase = .waiting r b todo

/-- The questions of a round are put to an honest peer with chain `c`, at a head of height at least `H` and at most `M`, and the round
begins as in `Begins`. -/
def Honest (codec : Codec) (remote : Err → Nat) (net : Bytes) (c : Spec.Peering.Chain) (K H M : Nat) (s : Link.State) (e : SyncEnv) : Prop :=
  ∃ (r : Round) (l : Local) (head : Lib), e = syncEnv codec remote r.lib r.known r.apply l ∧ Spec.Peering.Keeps l net head c ∧
    H ≤ head.height.toNat ∧ head.height.toNat ≤ M ∧ head.id = c.id head.height.toNat ∧ Begins c head K s r

/-- An infinite execution in which nothing is neglected for ever. -/
structure Fair (o : Opts) (ao : AppOpts) (σ : Nat → State) (ev : Nat → Label) : Prop where
  exec : ∀ n, step o ao (σ n) (ev n) = some (σ (n + 1))
  /-- the session goes on when it can -/
  session : ∀ n, (∀ m, n ≤ m → ∃ x, Own x ∧ (step o ao (σ m) x).isSome = true) → ∃ m, n ≤ m ∧ Own (ev m)
  time : ∀ (T : Int) (n : Nat), ∃ m, n ≤ m ∧ T ≤ (σ m).link.app.now
  announced : ∀ n, (∀ m, n ≤ m → ∃ i, (Link.step ao (σ m).link (.deliver i)).isSome = true) → ∃ m, n ≤ m ∧ ∃ i, ev m = .sys (.deliver i)
  rest : ∀ (k : App.Kind) (n : Nat), (∀ m, n ≤ m → ∃ x, k.has x ∧ (Link.step ao (σ m).link (.act x)).isSome = true) →
    ∃ m, n ≤ m ∧ ∃ x, ev m = .sys (.act x) ∧ k.has x
  /-- while the session waits for one and the same call, the traffic from elsewhere ends at some time: other calls, fork heads, new
  blocks from elsewhere and answers with the block-state error -/
  calm : ∀ n, (∀ m, n ≤ m → InCall (σ m)) → ∃ N, n ≤ N ∧ (∀ m l, N ≤ m → ev m = .sys l → Link.Quiet l) ∧
    ∃ ids : List Bytes, ∀ m id prev h, N ≤ m → ev m = .sys (.accept id prev h) → id ∈ ids

/-- The blocks of the chain say their heights. -/
def Numbered (c : Spec.Peering.Chain) (M : Nat) : Prop := ∀ k, 0 < k → k ≤ M → ∀ x, (c.blk k).toBlk = some x → x.height.toNat = k

end SyncRun
end Spec
end KP2P
