import Verif.Base.Basic
/-!
# Model of `GossipManager` field by field, with everything that may fail in it

internal/p2p/gossip.go:36-119 (`GossipManager`, `NewGossipManager`, `RegisterValidator`, `Start`, `Stop`, `PublishMessage`), and
of the way `EnableGossip` uses two of them (lines 197-247, 287-292, 380-385).

`Model/GossipRun` and `Model/GossipServ` have the goroutines around the manager and take it for granted that the topic was
joined and that subscribing succeeds. Here the goroutines are left out, but `Join`, `Subscribe`, `RegisterTopicValidator` and
`Publish` of the library may fail at any call, and every pointer that the code dereferences is a field that may be nil.

`Start` and `Stop` hold `enableMutex` throughout and are one step each. `PublishMessage` does not take the mutex: its test of
`Enabled` and its use of `gm.topic` are two steps, and anything may happen in between.

Simplifications: a message is not looked into; a subscription is a number; the reader goroutine of line 92 is represented by
its context only (its cancel function).
-/

namespace KP2P
namespace GMan

/-- A call of `PublishMessage` (gossip.go:112-121). -/
inductive Pub where
  /-- after the test of line 113, before line 118 -/
  | passed (x : Bytes)
  /-- returned, with its answer -/
  | answered (x : Bytes) (ok : Bool)
  deriving DecidableEq, Repr

/-- `GossipManager` (gossip.go:36-45) and what the library and the callers have seen of it. -/
structure State where
  /-- `gm.topic` is not nil -/
  topic : Bool
  /-- `gm.sub` -/
  sub : Option Nat
  /-- `gm.cancel`: the reader whose context it cancels -/
  cancel : Option Nat
  /-- `gm.Enabled` -/
  enabled : Bool
  /-- subscriptions that the library has and that have not been cancelled -/
  live : List Nat
  /-- readers whose context has not been cancelled -/
  readers : List Nat
  /-- subscriptions made so far -/
  made : Nat
  /-- a validator is registered with the library for this topic -/
  validator : Bool
  /-- the calls of `PublishMessage` -/
  pubs : List Pub
  /-- messages that the library has taken -/
  sent : List Bytes
  /-- a nil pointer was dereferenced -/
  panicked : Bool
  deriving DecidableEq, Repr

/-- `NewGossipManager` (gossip.go:48-64); `joined` says whether `Join` succeeded. -/
def new (joined : Bool) : State :=
  { topic := joined, sub := none, cancel := none, enabled := false, live := [], readers := [], made := 0,
    validator := false, pubs := [], sent := [], panicked := false }

inductive Label where
  /-- `RegisterValidator` (lines 67-69); it fails if there is one already, and may fail otherwise -/
  | register (ok : Bool)
  /-- `Start` (lines 72-96); `ok` is the outcome of `Subscribe`, if it comes to that -/
  | start (ok : Bool)
  /-- `Stop` (lines 99-110) -/
  | stop
  /-- `PublishMessage` is called (line 113) -/
  | check (x : Bytes)
  /-- the `i`-th call of `PublishMessage` goes on (lines 118-120); `ok` is the outcome of `Publish` -/
  | publish (i : Nat) (ok : Bool)
  deriving DecidableEq, Repr

/-- gossip.go:72-96. The second component is false if an error is returned. -/
def start (s : State) (ok : Bool) : State × Bool :=
  if s.enabled then (s, true)
  else if !s.topic then (s, false)
  else if !ok then (s, false)
  else ({ s with
    sub := some s.made, cancel := some s.made, live := s.live ++ [s.made], readers := s.readers ++ [s.made],
    made := s.made + 1, enabled := true }, true)

/-- gossip.go:99-110. Both `gm.cancel()` and `gm.sub.Cancel()` panic if the field is nil. -/
def stop (s : State) : State :=
  if !s.enabled then s
  else match s.cancel, s.sub with
    | some c, some u =>
      { s with readers := s.readers.filter (· ≠ c), live := s.live.filter (· ≠ u), sub := none, enabled := false }
    | _, _ => { s with panicked := true }

/-- One step; `none` if it is not possible. -/
def step (s : State) (l : Label) : Option State :=
  if s.panicked then none
  else match l with
  | .register ok => some { s with validator := s.validator || ok }
  | .start ok => some (start s ok).1
  | .stop => some (stop s)
  | .check x => some { s with pubs := s.pubs ++ [if s.enabled then .passed x else .answered x false] }
  | .publish i ok =>
    match s.pubs[i]? with
    | some (.passed x) =>
      if s.topic then
        some { s with pubs := s.pubs.set i (.answered x true), sent := if ok then s.sent ++ [x] else s.sent }
      else some { s with panicked := true }
    | _ => none

/-- Run a sequence of steps. -/
def run (s : State) : List Label → Option State
  | [] => some s
  | l :: ls => match step s l with
    | some s' => run s' ls
    | none => none

/-- Two managers and the announcements of `KoinosGossip` (gossip.go:155-168, 197-247). -/
structure Both where
  block : State
  tx : State
  /-- the calls of `BroadcastGossipStatus`, oldest first (lines 201, 206) -/
  told : List Bool
  deriving DecidableEq, Repr

/-- What the library says when gossip is switched on: the outcomes of the two registrations and the two subscriptions. -/
structure Outcome where
  blockReg : Bool
  blockSub : Bool
  txReg : Bool
  txSub : Bool
  deriving DecidableEq, Repr

/-- gossip.go:290-291 or 383-384: the errors of `RegisterValidator` and `Start` are discarded. -/
def launch (s : State) (reg sub : Bool) : State :=
  (start { s with validator := s.validator || reg } sub).1

/-- `EnableGossip` (gossip.go:197-210) with the two listeners' first lines (290-291, 383-384) run to the end. -/
def enableGossip (b : Both) (on : Bool) (o : Outcome) : Both :=
  if on then ⟨launch b.block o.blockReg o.blockSub, launch b.tx o.txReg o.txSub, b.told ++ [true]⟩
  else ⟨stop b.block, stop b.tx, b.told ++ [false]⟩

/-- `NewKoinosGossip` (gossip.go:171-194). -/
def newBoth (blockJoined txJoined : Bool) : Both := ⟨new blockJoined, new txJoined, []⟩

/-- A sequence of calls of `EnableGossip`. -/
def toggles (b : Both) : List (Bool × Outcome) → Both
  | [] => b
  | (on, o) :: rest => toggles (enableGossip b on o) rest

end GMan
end KP2P
