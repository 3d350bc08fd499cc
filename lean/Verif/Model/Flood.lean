import Verif.Model.GossipValidate
import Verif.Model.Node
/-!
# Many nodes: how blocks spread by gossip

internal/p2p/gossip.go:112-122 and 267-284 (publishing), 310-377 (validating, `Verif/Model/GossipValidate.lean`), internal/node/node.go:223-248 and
476-490 (which blocks are published, and the identity of messages, `Verif/Model/Node.lean`). A network of nodes that run this code, and others that
send what they like.

Assumptions about libp2p's pubsub, which is not part of the repository: a message is known by its id; a node takes a message with an id that is not
among those it has seen, unless it is a message of its own that comes back, marks the id as seen, and has it validated, which may take any time; if the
validator accepts, the message goes as it is to all neighbours but the one it came from and the one that published it; publishing does the same with a
new message, to all neighbours; when as many validations go on at a node as pubsub allows (1024 for a topic, gossip.go:67-69 does not ask for another
number), a further message is marked as seen and thrown away; an id that was seen is forgotten after some time (thirty seconds, node.go:63 and 146; here at any time). Messages are
signed by the node that publishes them (`StrictSign`, node.go:174): nobody can make up a message in the name of another, but everybody can pass on, at any
time and to anybody, what another has published. Simplifications: neighbours are those a node passes messages
on to (in the code the mesh, and those that ask for what they have been told of), and do not change; a validation ends in one step with an arbitrary answer
of the applicator, and an arbitrary irreversible height; gossip is on at all nodes; only blocks (transactions go the
same way, with lines 403-447).
-/

namespace KP2P
namespace Flood
open GossipValidate (Msg)

/-- Nodes are known by their peer ids. -/
structure Net where
  /-- the nodes that run this code -/
  honest : Bytes → Bool
  /-- to whom a node passes messages on -/
  adj : Bytes → List Bytes
  /-- gossip.go:273, `canonical.Marshal` -/
  encode : RawBlock → Bytes
  /-- gossip.go:340, `proto.Unmarshal` -/
  decode : Bytes → Except Err RawBlock
  /-- SHA-256, in the ids of messages -/
  sha : Bytes → Bytes
  /-- how many validations go on at a node at the same time -/
  room : Nat

/-- Observable events, newest first. -/
inductive Obs where
  /-- node `v` publishes block `b` -/
  | published (v : Bytes) (b : RawBlock)
  /-- `u` sends a message with this contents to `v` -/
  | sent (u v : Bytes) (data : Bytes)
  /-- node `v` hands block `b` to its applicator; the answer -/
  | applied (v : Bytes) (b : RawBlock) (answer : Option Err)
  /-- the validator of node `v` accepts or refuses a message with this contents -/
  | judged (v : Bytes) (data : Bytes) (accept : Bool)
  /-- node `v` reports peer `p` -/
  | reported (v p : Bytes) (e : Err)
  deriving DecidableEq, Repr

/-- A message on its way. -/
structure Packet where
  source : Bytes
  dest : Bytes
  msg : Msg
  deriving DecidableEq, Repr

structure State where
  /-- the ids each node has seen -/
  seen : List (Bytes × Bytes)
  flight : List Packet
  /-- the messages that are being validated -/
  judging : List Packet
  log : List Obs

def init : State := { seen := [], flight := [], judging := [], log := [] }

/-- node.go:476-490: the id of a message with this contents on the topic of blocks. -/
def msgID (n : Net) (data : Bytes) : Bytes :=
  Node.messageID n.sha (fun _ => []) { topic := Node.blockTopic, data := data, sender := [], seqno := [], signature := [] }

inductive Label where
  /-- the chain of `v` has accepted the block (node.go:243) -/
  | publish (v : Bytes) (b : RawBlock)
  /-- the `i`-th packet arrives -/
  | arrive (i : Nat)
  /-- the `i`-th validation ends; `lib` and `answer` are what it finds -/
  | judge (i : Nat) (lib : UInt64) (answer : Option Err)
  /-- somebody else sends what it likes -/
  | inject (p : Packet)
  /-- `v` forgets that it has seen this id -/
  | forget (v id : Bytes)

/-- `v` sends the message to the given nodes. -/
def pass (v : Bytes) (m : Msg) (ws : List Bytes) : List Packet := ws.map fun w => ⟨v, w, { m with receivedFrom := v }⟩

/-- The message is one that its sender has published. -/
def authentic (n : Net) (log : List Obs) (m : Msg) : Bool :=
  decide (m.key = m.sender) && log.any fun
    | .published v b => decide (v = m.sender ∧ n.encode b = m.data)
    | _ => false

def step (n : Net) (s : State) : Label → Option State
  | .publish v b =>
    if !n.honest v then none else
    let m : Msg := { data := n.encode b, sender := v, receivedFrom := v, key := v }
    if (v, msgID n m.data) ∈ s.seen then some { s with log := .published v b :: s.log }
    else some { s with
      seen := (v, msgID n m.data) :: s.seen
      flight := s.flight ++ pass v m (n.adj v)
      log := (n.adj v).map (.sent v · m.data) ++ .published v b :: s.log }
  | .arrive i =>
    match s.flight[i]? with
    | none => none
    | some p =>
      if !n.honest p.dest then some { s with flight := s.flight.eraseIdx i }
      else if p.msg.sender = p.dest then some { s with flight := s.flight.eraseIdx i }
      else if (p.dest, msgID n p.msg.data) ∈ s.seen then some { s with flight := s.flight.eraseIdx i }
      else if n.room ≤ s.judging.countP (fun q => q.dest = p.dest) then some { s with
        seen := (p.dest, msgID n p.msg.data) :: s.seen
        flight := s.flight.eraseIdx i }
      else some { s with
        seen := (p.dest, msgID n p.msg.data) :: s.seen
        flight := s.flight.eraseIdx i
        judging := s.judging ++ [p] }
  | .judge i lib answer =>
    match s.judging[i]? with
    | none => none
    | some p =>
      let r := GossipValidate.validateBlock
        { me := p.dest, decode := n.decode, lib := lib, apply := fun _ => answer, author := id } p.msg
      let ws := if r.accept then (n.adj p.dest).filter (fun w => w ≠ p.source ∧ w ≠ p.msg.sender) else []
      some { s with
        judging := s.judging.eraseIdx i
        flight := s.flight ++ pass p.dest p.msg ws
        log := ws.map (.sent p.dest · p.msg.data) ++ (r.report.toList.map fun x => .reported p.dest x.1 x.2) ++
          .judged p.dest p.msg.data r.accept :: (r.applied.map (.applied p.dest · answer) ++ s.log) }
  | .inject p =>
    if n.honest p.source || decide (p.msg.receivedFrom ≠ p.source) || (n.honest p.msg.sender && !authentic n s.log p.msg) then none
    else some { s with flight := s.flight ++ [p], log := .sent p.source p.dest p.msg.data :: s.log }
  | .forget v id => if (v, id) ∈ s.seen then some { s with seen := s.seen.filter (· ≠ (v, id)) } else none

def run (n : Net) (s : State) : List Label → Option State
  | [] => some s
  | l :: ls => match step n s l with
    | some s' => run n s' ls
    | none => none

end Flood
end KP2P
