import Verif.Model.Flood
import Verif.Model.ChainLink
/-!
# Many nodes, each with its applicator and its chain

Gossip in a network (`Model/Flood.lean`) together with the applicator and the chain of every node (`Model/ChainLink.lean`): the validator of
a node hands blocks to the node's own applicator (internal/p2p/gossip.go:366-373) and its verdict on the message is what this call of `ApplyBlock`
returns; a node publishes the blocks that its own chain has accepted (internal/node/node.go:223-248).

Simplifications: those of the two models. The irreversible height that a validator finds (gossip.go:362) is arbitrary. A node may publish a block
any number of times once its chain has accepted it, and at any time (in the code once, when it is told). Calls of `ApplyBlock` that do not come from gossip (from
sessions with peers, `peer_connection.go`) are free: `node v (.act (.applyBlock b))`. The time-out of gossip.go:368 is that of the applicator
model (`callerTimesOut`), and may strike at any time. A node does not forget that it has seen a message while it is validating it (in the code a
validation takes no longer than the time-out of gossip.go:368, and messages are forgotten after thirty seconds, node.go:63 and 146).
-/

namespace KP2P
namespace Whole
open Flood (Net Packet)

/-- A call of `ApplyBlock` by a validator: the node, the contents of the message, the number of the call, the irreversible height found. -/
structure Call where
  node : Bytes
  data : Bytes
  number : Nat
  lib : UInt64
  deriving DecidableEq, Repr

structure State where
  net : Flood.State
  /-- applicator and chain of each node -/
  node : Bytes → Link.State
  /-- the calls validators have made, oldest first, for messages that are not forgotten -/
  calls : List Call

inductive Label where
  /-- a step of the applicator or the chain of a node -/
  | node (v : Bytes) (l : Link.Label)
  /-- node.go:243: the chain of `v` has accepted the block -/
  | publish (v : Bytes) (b : RawBlock)
  /-- the `i`-th packet arrives -/
  | arrive (i : Nat)
  /-- somebody else sends what it likes -/
  | inject (p : Packet)
  /-- `v` forgets that it has seen messages with this id -/
  | forget (v id : Bytes)
  /-- the `i`-th validation gets to gossip.go:371, having found `lib` in line 362 -/
  | submit (i : Nat) (lib : UInt64)
  /-- the `i`-th validation ends; if it has not called `ApplyBlock`, it finds `lib` -/
  | finish (i : Nat) (lib : UInt64)

/-- What the validator of a node hands to the applicator, if it finds the irreversible height `lib` (gossip.go:338-371). -/
def handed (n : Net) (p : Packet) (lib : UInt64) : List RawBlock :=
  (GossipValidate.applyBlock { me := p.dest, decode := n.decode, lib := lib, apply := fun _ => none, author := id } p.msg).1

/-- The call the validation of this packet has made, if it has. -/
def callOf (s : State) (p : Packet) : Option Call := s.calls.find? fun c => decide (c.node = p.dest ∧ c.data = p.msg.data)

/-- What the call returned, if it has (applicator.go:100-115). -/
def resultOf (log : List Obs) (r : Nat) : Option (Option Err) :=
  log.findSome? fun
    | .returned r' e => if r' = r then some e else none
    | .refused r' e => if r' = r then some e else none
    | _ => none

def step (n : Net) (o : AppOpts) (s : State) : Label → Option State
  | .node v l =>
    if n.honest v then (Link.step o (s.node v) l).map fun x => { s with node := Function.update s.node v x } else none
  | .publish v b =>
    if Link.Has (s.node v) (str b.id) then (Flood.step n s.net (.publish v b)).map fun x => { s with net := x } else none
  | .arrive i => (Flood.step n s.net (.arrive i)).map fun x => { s with net := x }
  | .inject p => (Flood.step n s.net (.inject p)).map fun x => { s with net := x }
  | .forget v id =>
    if s.net.judging.any fun p => decide (p.dest = v ∧ Flood.msgID n p.msg.data = id) then none
    else (Flood.step n s.net (.forget v id)).map fun x =>
      { s with net := x, calls := s.calls.filter fun c => !decide (c.node = v ∧ Flood.msgID n c.data = id) }
  | .submit i lib =>
    match s.net.judging[i]? with
    | none => none
    | some p =>
      if (callOf s p).isSome then none else
      match handed n p lib with
      | b :: _ =>
        match b.toBlk with
        | none => none
        | some k =>
          (Link.step o (s.node p.dest) (.act (.applyBlock k))).map fun x =>
            { s with
              node := Function.update s.node p.dest x
              calls := s.calls ++ [⟨p.dest, p.msg.data, (s.node p.dest).app.nextReq, lib⟩] }
      | [] => none
  | .finish i lib =>
    match s.net.judging[i]? with
    | none => none
    | some p =>
      match callOf s p with
      | some c =>
        match resultOf (s.node p.dest).app.log c.number with
        | some e => (Flood.step n s.net (.judge i c.lib e)).map fun x => { s with net := x }
        | none => none
      | none =>
        if handed n p lib = [] then (Flood.step n s.net (.judge i lib none)).map fun x => { s with net := x } else none

/-- All nodes start with nothing under way; their chains may have accepted blocks already. -/
def init (nodes : Bytes → Link.State) : State := { net := Flood.init, node := nodes, calls := [] }

def run (n : Net) (o : AppOpts) (s : State) : List Label → Option State
  | [] => some s
  | l :: ls => match step n o s l with
    | some s' => run n o s' ls
    | none => none

end Whole
end KP2P
