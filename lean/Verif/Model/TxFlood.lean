import Mathlib.Logic.Function.Basic
import Verif.Model.Flood
import Verif.Model.TxApply
/-!
# Many nodes: how transactions spread by gossip

internal/p2p/gossip.go:248-265 (publishing) and 403-447 (validating, `Model/GossipValidate.lean`), internal/p2p/applicator.go:118-131 and 381-389 with
the transaction cache (`Model/TxApply.lean`), internal/node/node.go:250-265 (which transactions are published) and 476-490 (identity of messages). A network of nodes that
run this code, and others that send what they like: the validator of a node hands the transactions it reads to the node's own applicator (gossip.go:436-438),
and its verdict on the message is what this call of `ApplyTransaction` returns.

Assumptions about libp2p's pubsub and simplifications are those of `Model/Flood.lean` and `Model/TxApply.lean`. A node may publish any transaction at
any time (in the code those its own chain announces in `koinos.mempool.accept`). Calls of `ApplyTransaction` come from validators only (in
the code they do). The time-out of gossip.go:435 is the one of the applicator model (`callerGivesUp`), and may strike at any time. A node does not
forget that it has seen a message while it is validating it (in the code a validation takes no longer than that time-out, and messages are forgotten
after thirty seconds, node.go:63 and 146).
-/

namespace KP2P
namespace TxFlood
open GossipValidate (Msg)
open Flood (Packet pass)

/-- Nodes are known by their peer ids. -/
structure Net where
  /-- the nodes that run this code -/
  honest : Bytes → Bool
  /-- to whom a node passes messages on -/
  adj : Bytes → List Bytes
  /-- gossip.go:254, `canonical.Marshal` -/
  encode : Tx → Bytes
  /-- gossip.go:421, `proto.Unmarshal` -/
  decode : Bytes → Except Err Tx
  /-- SHA-256, in the ids of messages -/
  sha : Bytes → Bytes
  /-- how many validations go on at a node at the same time -/
  room : Nat

/-- Observable events of the network, newest first. -/
inductive Obs where
  /-- node `v` publishes transaction `t` -/
  | published (v : Bytes) (t : Tx)
  /-- `u` sends a message with this contents to `v` -/
  | sent (u v : Bytes) (data : Bytes)
  /-- the validator of node `v` accepts or refuses a message with this contents -/
  | judged (v : Bytes) (data : Bytes) (accept : Bool)
  /-- node `v` reports peer `p` -/
  | reported (v p : Bytes) (e : Err)
  deriving DecidableEq, Repr

/-- A call of `ApplyTransaction` by a validator: the node, the contents of the message, the number of the call. -/
structure Call where
  node : Bytes
  data : Bytes
  number : Nat
  deriving DecidableEq, Repr

structure State where
  /-- the ids each node has seen -/
  seen : List (Bytes × Bytes)
  flight : List Packet
  /-- the messages that are being validated -/
  judging : List Packet
  /-- the transaction part of the applicator of each node -/
  node : Bytes → TxA.State
  /-- the calls validators have made, oldest first, for messages that are not forgotten -/
  calls : List Call
  log : List Obs

/-- node.go:476-490: the id of a message with this contents on the topic of transactions. -/
def msgID (n : Net) (data : Bytes) : Bytes :=
  Node.messageID n.sha (fun _ => []) { topic := Node.transactionTopic, data := data, sender := [], seqno := [], signature := [] }

inductive Label where
  /-- node.go:250-265: the chain of `v` announces the transaction -/
  | publish (v : Bytes) (t : Tx)
  /-- the `i`-th packet arrives -/
  | arrive (i : Nat)
  /-- somebody else sends what it likes -/
  | inject (p : Packet)
  /-- `v` forgets that it has seen messages with this id -/
  | forget (v id : Bytes)
  /-- the `i`-th validation gets to gossip.go:438 -/
  | submit (i : Nat)
  /-- the `i`-th validation ends -/
  | finish (i : Nat)
  /-- a step of the applicator of a node, other than a call -/
  | node (v : Bytes) (l : TxA.Label)

/-- gossip.go:418-438: the transaction that the validation of this packet hands to the applicator, if any. -/
def handed (n : Net) (p : Packet) : List Tx :=
  (GossipValidate.applyTransaction { me := p.dest, decode := n.decode, lib := 0, apply := fun _ => none, author := id } p.msg).1

/-- The call the validation of this packet has made, if it has. -/
def callOf (s : State) (p : Packet) : Option Call := s.calls.find? fun c => decide (c.node = p.dest ∧ c.data = p.msg.data)

/-- What the call returned, if it has (applicator.go:123-129). -/
def resultOf (log : List TxA.Obs) (r : Nat) : Option (Option Err) :=
  log.findSome? fun
    | .returned r' e => if r' = r then some e else none
    | _ => none

/-- gossip.go:403-416: the `i`-th validation, of packet `p`, ends; `answer` is what the applicator said. -/
def judge (n : Net) (s : State) (i : Nat) (p : Packet) (answer : Option Err) : State :=
  let r := GossipValidate.validateTransaction
    { me := p.dest, decode := n.decode, lib := 0, apply := fun _ => answer, author := id } p.msg
  let ws := if r.accept then (n.adj p.dest).filter (fun w => w ≠ p.source ∧ w ≠ p.msg.sender) else []
  { s with
    judging := s.judging.eraseIdx i
    flight := s.flight ++ pass p.dest p.msg ws
    log := ws.map (.sent p.dest · p.msg.data) ++ (r.report.toList.map fun x => .reported p.dest x.1 x.2) ++
      .judged p.dest p.msg.data r.accept :: s.log }

/-- The message is one that its sender has published (it carries its signature, which nobody else can make). -/
def authentic (n : Net) (log : List Obs) (m : Msg) : Bool :=
  decide (m.key = m.sender) && log.any fun
    | .published v t => decide (v = m.sender ∧ n.encode t = m.data)
    | _ => false

/-- The label is a call of `ApplyTransaction`. -/
def isCall : TxA.Label → Bool
  | .call _ => true
  | _ => false

def step (n : Net) (s : State) : Label → Option State
  | .publish v t =>
    if !n.honest v then none else
    let m : Msg := { data := n.encode t, sender := v, receivedFrom := v, key := v }
    if (v, msgID n m.data) ∈ s.seen then some { s with log := .published v t :: s.log }
    else some { s with
      seen := (v, msgID n m.data) :: s.seen
      flight := s.flight ++ pass v m (n.adj v)
      log := (n.adj v).map (.sent v · m.data) ++ .published v t :: s.log }
  | .arrive i =>
    match s.flight[i]? with
    | none => none
    | some p =>
      if !n.honest p.dest then some { s with flight := s.flight.eraseIdx i }
      else if p.msg.sender = p.dest then some { s with flight := s.flight.eraseIdx i }
      else if (p.dest, msgID n p.msg.data) ∈ s.seen then some { s with flight := s.flight.eraseIdx i }
      else if n.room ≤ s.judging.countP (fun q => q.dest = p.dest) then some { s with
        seen := (p.dest, msgID n p.msg.data) :: s.seen
        flight := s.flight.eraseIdx i }
      else some { s with
        seen := (p.dest, msgID n p.msg.data) :: s.seen
        flight := s.flight.eraseIdx i
        judging := s.judging ++ [p] }
  | .inject p =>
    if n.honest p.source || decide (p.msg.receivedFrom ≠ p.source) || (n.honest p.msg.sender && !authentic n s.log p.msg) then none
    else some { s with flight := s.flight ++ [p], log := .sent p.source p.dest p.msg.data :: s.log }
  | .forget v id =>
    if s.judging.any fun p => decide (p.dest = v ∧ msgID n p.msg.data = id) then none
    else if (v, id) ∈ s.seen then some { s with
      seen := s.seen.filter (· ≠ (v, id))
      calls := s.calls.filter fun c => !decide (c.node = v ∧ msgID n c.data = id) }
    else none
  | .submit i =>
    match s.judging[i]? with
    | none => none
    | some p =>
      if (callOf s p).isSome then none else
      match handed n p with
      | t :: _ =>
        (TxA.step (s.node p.dest) (.call t)).map fun x =>
          { s with
            node := Function.update s.node p.dest x
            calls := s.calls ++ [⟨p.dest, p.msg.data, (s.node p.dest).nextReq⟩] }
      | [] => none
  | .finish i =>
    match s.judging[i]? with
    | none => none
    | some p =>
      match callOf s p with
      | some c =>
        match resultOf (s.node p.dest).log c.number with
        | some e => some (judge n s i p e)
        | none => none
      | none => if handed n p = [] then some (judge n s i p none) else none
  | .node v l =>
    if !n.honest v || isCall l then none
    else (TxA.step (s.node v) l).map fun x => { s with node := Function.update s.node v x }

/-- All nodes start with nothing under way and an empty transaction cache; their clocks may differ. -/
def init (dur : Int) (clock : Bytes → Int) : State :=
  { seen := [], flight := [], judging := [], node := fun v => TxA.init dur (clock v), calls := [], log := [] }

def run (n : Net) (s : State) : List Label → Option State
  | [] => some s
  | l :: ls => match step n s l with
    | some s' => run n s' ls
    | none => none

end TxFlood
end KP2P
