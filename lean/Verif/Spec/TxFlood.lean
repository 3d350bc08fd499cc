import Verif.Model.TxFlood
import Verif.Spec.TxApply
import Verif.Spec.TxApplyFair
/-!
# What gossip of transactions is to achieve in a network
-/

namespace KP2P
namespace Spec
namespace TxFlood
open KP2P.TxFlood
open KP2P.Flood (Packet)
open KP2P.Spec.TxA (tid Shows)

/-- From `v` to `w` there is a way along which all nodes after `v` run this code. -/
inductive Path (n : Net) (v : Bytes) : Bytes → Prop
  | here : Path n v v
  | step (w x : Bytes) : Path n v w → x ∈ n.adj w → n.honest x = true → Path n v x

/-- An infinite execution from the beginning. -/
structure Exec (n : Net) (dur : Int) (σ : Nat → State) (ev : Nat → Label) : Prop where
  start : ∃ clock, σ 0 = init dur clock
  steps : ∀ k, step n (σ k) (ev k) = some (σ (k + 1))

/-- The step concerns call `r` of the applicator of `v`: a worker takes it up, submits its transaction, the chain answers, or the caller finds its answer. -/
def AboutCall (v : Bytes) (r : Nat) (s : State) : Label → Prop
  | .node w l => w = v ∧ TxA.About r (s.node v) l
  | _ => False

/-- Nothing is neglected for ever: packets arrive, validations go on when they can, and no call of an applicator is forgotten. -/
structure Fair (n : Net) (σ : Nat → State) (ev : Nat → Label) : Prop where
  delivery : ∀ p k, (∀ j, k ≤ j → p ∈ (σ j).flight) → ∃ j i, k ≤ j ∧ ev j = .arrive i ∧ (σ j).flight[i]? = some p
  validation : ∀ p k, (∀ j, k ≤ j → ∃ i, (σ j).judging[i]? = some p ∧
      ((step n (σ j) (.submit i)).isSome = true ∨ (step n (σ j) (.finish i)).isSome = true)) →
    ∃ j i, k ≤ j ∧ (σ j).judging[i]? = some p ∧ (ev j = .submit i ∨ ev j = .finish i)
  calls : ∀ v, n.honest v = true → ∀ r k,
    (∀ j, k ≤ j → ∃ l, AboutCall v r (σ j) l ∧ (step n (σ j) l).isSome = true) → ∃ j, k ≤ j ∧ AboutCall v r (σ j) (ev j)

/-- The transaction is known to the chain of `v`: `v` published it, its chain accepted it, or announced a block with it. -/
def Got (v : Bytes) (t : Tx) (s : State) : Prop :=
  Obs.published v t ∈ s.log ∨ (∃ r, TxA.Obs.verdict r t none ∈ (s.node v).log) ∨
    ∃ p ∈ (s.node v).passes, p.req = none ∧ Shows p (tid t)

/-- No chain refuses the transaction. -/
def Welcome (n : Net) (t : Tx) (s : State) : Prop :=
  ∀ v, n.honest v = true → ∀ r e, TxA.Obs.verdict r t (some e) ∉ (s.node v).log

/-- No validation of the transaction gives up waiting: what its call returned is what the applicator answered. -/
def Patient (n : Net) (t : Tx) (s : State) : Prop :=
  ∀ v, n.honest v = true → ∀ r e, TxA.Obs.call r t ∈ (s.node v).log → TxA.Obs.returned r e ∈ (s.node v).log →
    TxA.Obs.answer r e ∈ (s.node v).log

/-- Fewer validations go on at `v` than may. -/
def Roomy (n : Net) (s : State) (v : Bytes) : Prop := s.judging.countP (fun q => q.dest = v) < n.room

/-- No node is too busy to validate a message with the transaction when it arrives. -/
def Room (n : Net) (t : Tx) (s : State) (l : Label) : Prop :=
  ∀ i p, l = .arrive i → s.flight[i]? = some p → p.msg.data = n.encode t → n.honest p.dest = true → Roomy n s p.dest

/-- No node has been handed another transaction with the same id. -/
def Alone (n : Net) (t : Tx) (s : State) : Prop :=
  ∀ v, n.honest v = true → ∀ r t', TxA.Obs.call r t' ∈ (s.node v).log → tid t' = tid t → t' = t

/-- The chain of `u` has accepted the transaction of call `r`, or its id had been shown to the cache of `u` not long before. -/
def Covered (dur : Int) (u : Bytes) (r : Nat) (t : Tx) (s : State) : Prop :=
  TxA.Obs.verdict r t none ∈ (s.node u).log ∨
    ∃ a q c, (s.node u).passes = a ++ q :: c ∧ q.req = some r ∧ q.txs = [t] ∧ ∃ p ∈ a, Shows p (tid t) ∧ q.time - p.time ≤ dur

/-- All chains judge transactions alike, announce good ones in blocks, nodes publish good ones, no validation gives up waiting, and no node forgets
a message with a transaction that the chains refuse before the transaction cache has forgotten the id of the transaction. -/
def Agreed (n : Net) (dur : Int) (verdict : Tx → Option Err) (s : State) : Label → Prop
  | .publish _ t => verdict t = none ∧ n.decode (n.encode t) = .ok t ∧ t.id ≠ none
  | .node v (.rpcReturn i e) => ∀ j, (s.node v).jobs[i]? = some j → e = verdict j.tx
  | .node _ (.broadcast txs) => ∀ t ∈ txs, verdict t = none
  | .node _ (.callerGivesUp _ _) => False
  | .forget v id => ∀ data t, n.decode data = .ok t → msgID n data = id → verdict t = none ∨
      ∀ p ∈ (s.node v).passes, Shows p (tid t) → dur < (s.node v).now - p.time
  | _ => True

/-- All steps of a run are of a kind. -/
def Along (n : Net) (P : State → Label → Prop) : State → List Label → Prop
  | _, [] => True
  | s, l :: ls => P s l ∧ ∀ s', step n s l = some s' → Along n P s' ls

end TxFlood
end Spec
end KP2P
