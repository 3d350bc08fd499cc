import Verif.Model.Wiring
/-!
# Model of who waits for the message loop of gossip, and for whom that loop waits

internal/p2p/gossip.go:72-120 (`Start`, `Stop`, `PublishMessage`), 249-283 (`PublishTransaction`, `PublishBlock`), called by
the handlers of internal/node/node.go:223-262 with `context.Background()`, and by the toggle (gossip_toggle.go:44-104);
internal/node/node.go:158-161 (`AppSpecificScore`), over `Model/Wiring`.

libp2p-pubsub (v0.9.3, outside the repository) is represented by one goroutine, its message loop. `Publish` puts a message
that was not seen before into a channel with room for `room` messages, which the loop receives from, and returns; a message
seen before is dropped. `Subscribe` and `Cancel` wait until the loop takes them. At any time (heartbeats) the loop may compute
the score of a peer: it calls `AppSpecificScore`, which is `GetPeerErrorScore`, and does nothing else until that returns.

Simplifications: only who waits for whom is modelled; contexts do not end (as in `Wiring`); no
score is asked for before the provider of addresses is set (C89); `RegisterValidator`, which waits
for the loop too, but without a lock, is part of `start`; of the toggle's decision only that it asks the connection
manager first, unless gossip is always on (gossip_toggle.go:46-52, 72).
-/

namespace KP2P
namespace Listen

inductive Kind where
  /-- `PublishBlock` or `PublishTransaction`; `fresh`: pubsub has not seen the message before -/
  | publish (fresh : Bool)
  /-- `GossipManager.Start` -/
  | start
  /-- `GossipManager.Stop` -/
  | stop
  deriving DecidableEq, Repr

/-- A call that has not returned. -/
structure Call where
  id : Nat
  /-- the topic: blocks or transactions -/
  blocks : Bool
  kind : Kind
  /-- it holds the topic's `enableMutex` (gossip.go:73, 100, 250, 269) -/
  inside : Bool
  deriving DecidableEq, Repr

structure Topic where
  /-- `GossipManager.Enabled` -/
  on : Bool
  /-- `enableMutex` is locked -/
  busy : Bool
  deriving DecidableEq, Repr

structure State where
  w : Wiring.State
  /-- the loop of pubsub is in `AppSpecificScore`, waiting for this query -/
  loop : Option Nat
  /-- messages in the loop's channel -/
  queue : Nat
  /-- messages the loop has taken and sent to other nodes -/
  relayed : Nat
  /-- the calls whose message was put into the channel -/
  published : List Nat
  block : Topic
  tx : Topic
  calls : List Call
  /-- calls that have returned -/
  returned : List Nat
  next : Nat
  deriving DecidableEq, Repr

/-- After `NewKoinosP2PNode`. -/
def init : State := ⟨Wiring.init, none, 0, 0, [], ⟨false, false⟩, ⟨false, false⟩, [], [], 0⟩

def State.topic (s : State) (blocks : Bool) : Topic := if blocks then s.block else s.tx

def State.setTopic (s : State) (blocks : Bool) (t : Topic) : State :=
  if blocks then { s with block := t } else { s with tx := t }

/-- The query is a new one. -/
def fresh (w : Wiring.State) (q : Nat) : Bool := !(w.queries.map Prod.fst).contains q && !w.answered.contains q

/-- Different queries of others have different numbers. -/
def allowed (w : Wiring.State) : Wiring.Label → Bool
  | .queryAddr q | .queryPeer q => fresh w q
  | _ => true

inductive Label where
  /-- a step of the error handler, the connection manager or their other callers -/
  | other (l : Wiring.Label)
  /-- the loop computes the score of a peer (node.go:158-161) -/
  | score (q : Nat)
  /-- `AppSpecificScore` returns -/
  | scored
  /-- the loop takes a message -/
  | pull
  /-- a call is made: a broadcast of the local services has arrived (node.go:243, 260), or the toggle switches -/
  | call (blocks : Bool) (k : Kind)
  /-- the call gets the lock and looks at `Enabled` (gossip.go:75, 102, 114, 253, 272) -/
  | lock (c : Call)
  /-- `topic.Publish` puts the message into the channel (gossip.go:119) and the call returns -/
  | push (c : Call)
  /-- the loop takes the `Subscribe` or `Cancel` of the call (gossip.go:83, 107), and the call returns -/
  | serve (c : Call)
  deriving DecidableEq, Repr

/-- With the lock: does the call return without asking pubsub for anything? -/
def idle (t : Topic) : Kind → Bool
  | .publish f => !t.on || !f
  | .start => t.on
  | .stop => !t.on

/-- One step; `room` is the size of the loop's channel, `always` the option `AlwaysEnable`. -/
def step (room : Nat) (always : Bool) (s : State) : Label → Option State
  | .other l =>
    if allowed s.w l then
      match Wiring.step s.w l with
      | some w => some { s with w := w }
      | none => none
    else none
  | .score q =>
    if s.loop = none ∧ fresh s.w q ∧ s.w.provider = true then
      match Wiring.step s.w (.queryPeer q) with
      | some w => some { s with w := w, loop := some q }
      | none => none
    else none
  | .scored => match s.loop with
    | some q => if q ∈ s.w.answered then some { s with loop := none } else none
    | none => none
  | .pull => if s.loop = none ∧ 0 < s.queue then some { s with queue := s.queue - 1, relayed := s.relayed + 1 } else none
  | .call b k =>
    if k ≠ .start ∨ always = true ∨ s.w.manager ≠ .off then
      some { s with calls := s.calls ++ [⟨s.next, b, k, false⟩], next := s.next + 1 }
    else none
  | .lock c =>
    if c ∈ s.calls ∧ c.inside = false ∧ (s.topic c.blocks).busy = false then
      if idle (s.topic c.blocks) c.kind then some { s with calls := s.calls.erase c, returned := c.id :: s.returned }
      else some (({ s with calls := { c with inside := true } :: s.calls.erase c } : State).setTopic c.blocks
        { s.topic c.blocks with busy := true })
    else none
  | .push c =>
    if c ∈ s.calls ∧ c.inside = true ∧ c.kind = .publish true ∧ s.queue < room then
      some (({ s with calls := s.calls.erase c, returned := c.id :: s.returned, queue := s.queue + 1,
                      published := c.id :: s.published } : State).setTopic c.blocks { s.topic c.blocks with busy := false })
    else none
  | .serve c =>
    if c ∈ s.calls ∧ c.inside = true ∧ (c.kind = .start ∨ c.kind = .stop) ∧ s.loop = none then
      some (({ s with calls := s.calls.erase c, returned := c.id :: s.returned } : State).setTopic c.blocks
        ⟨c.kind = .start, false⟩)
    else none

def run (room : Nat) (always : Bool) (s : State) : List Label → Option State
  | [] => some s
  | l :: ls => match step room always s l with
    | some s' => run room always s' ls
    | none => none

def Reachable (room : Nat) (always : Bool) (s : State) : Prop := ∃ ls, run room always init ls = some s

/-- The steps of the goroutines that are already at work, as opposed to new calls, queries, errors and heartbeats. -/
def Internal : Label → Bool
  | .other l => Wiring.Internal l
  | .scored | .pull | .lock _ | .push _ | .serve _ => true
  | .score _ | .call .. => false

end Listen
end KP2P
