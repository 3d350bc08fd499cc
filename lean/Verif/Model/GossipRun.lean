import Verif.Base.Basic
/-!
# Model of starting and stopping gossip on one topic (internal/p2p/gossip.go:71-146, 197-308)

The block topic and the transaction topic run the same code (`startBlockGossip` and `startTransactionGossip`,
`PublishBlock` and `PublishTransaction`); this is the labelled transition system of one topic. Every call of `StartGossip`
makes a new context, a listener goroutine and a channel; they form a `Gen`. The reader of a generation is the goroutine of
`readMessages`. One step is one critical section or one channel operation; steps of different goroutines interleave
freely.

Simplifications: joining and subscribing to the topic always succeed; a message is not looked into; `Publish` itself does
not fail; the statistics goroutine (lines 220-234) is left out.
-/

namespace KP2P
namespace GossipRun

/-- A listener goroutine (lines 287-307): spawned; in its loop; returned (the channel is closed by the deferred call). -/
inductive Pc where
  | spawned
  | listening
  | returned
  deriving DecidableEq, Repr

/-- A reader goroutine (lines 124-146): not started; in `sub.Next`; between `sub.Next` and the end of the `select`, with a
message in hand; returned. -/
inductive Reader where
  | none
  | waiting
  | holding
  | returned
  deriving DecidableEq, Repr

/-- One call of `StartGossip` on this topic. `chan` is the number of messages in the channel; the channel is closed once
the listener has returned. `cancelled` is the state of `gossipCtx`, `stopped` that of the reader's own context (line 106)
and its subscription. -/
structure Gen where
  pc : Pc
  reader : Reader
  chan : Nat
  cancelled : Bool
  stopped : Bool
  deriving DecidableEq, Repr

/-- The state of one topic. -/
structure State where
  /-- all generations, in the order of the calls of `StartGossip` -/
  gens : List Gen
  /-- `GossipManager.Enabled` -/
  enabled : Bool
  /-- the generation whose subscription and cancel function are in `gm.sub` and `gm.cancel` -/
  current : Option Nat
  /-- the generation whose cancel function is in `kg.gossipCancel` -/
  cancelOf : Option Nat
  /-- messages published so far -/
  published : List Bytes
  /-- the process has panicked: send on a closed channel -/
  crashed : Bool
  /-- the context given to `StartGossip` is done: every context derived from it is, too -/
  over : Bool
  deriving DecidableEq, Repr

/-- `NewKoinosGossip`: nothing started. -/
def init : State := ⟨[], false, none, none, [], false, false⟩

inductive Label where
  /-- `StartGossip` (lines 213-218): new context, new goroutine -/
  | start
  /-- the listener goroutine runs lines 288-292 -/
  | launch (i : Nat)
  /-- `StopGossip`, line 240 or 241: `GossipManager.Stop` -/
  | stop
  /-- `StopGossip`, lines 242-245 -/
  | cancel
  /-- the cancel function of generation `i` is called, by whomever (`Model/GossipServ` has lines 242-245 in single steps) -/
  | cancelGen (i : Nat)
  /-- the context given to `StartGossip` ends; it is the node's own (gossip_toggle.go:48, 87), the same for all calls -/
  | over
  /-- `PublishBlock` / `PublishTransaction` with an encodable argument -/
  | publish (x : Bytes)
  /-- `sub.Next` returns a message -/
  | message (i : Nat)
  /-- `sub.Next` fails -/
  | failed (i : Nat)
  /-- the `select` of lines 139-144 takes the send -/
  | send (i : Nat)
  /-- the `select` of lines 139-144 takes `ctx.Done()` -/
  | quit (i : Nat)
  /-- the listener takes a message from the channel -/
  | receive (i : Nat)
  /-- the listener takes `ctx.Done()` and returns, closing the channel -/
  | leave (i : Nat)
  deriving DecidableEq, Repr

/-- gossip.go:25-26: the capacity of the channel; the proofs do not depend on its value. -/
abbrev Cap := Nat

/-- The reader's context is done (line 88: a child of `gossipCtx`). -/
def Gen.done (g : Gen) : Bool := g.cancelled || g.stopped

/-- Replace generation `i`. -/
def State.put (s : State) (i : Nat) (g : Gen) : State := { s with gens := s.gens.set i g }

/-- One step; `none` if the step is not enabled. A crashed process makes no step. `cap` is the capacity of the channel. -/
def step (cap : Cap) (s : State) (l : Label) : Option State :=
  if s.crashed then none
  else match l with
  | .start =>
    some { s with gens := s.gens ++ [⟨.spawned, .none, 0, s.over, false⟩], cancelOf := some s.gens.length }
  | .launch i =>
    match s.gens[i]? with
    | some g =>
      if g.pc = .spawned then
        -- gossip.go:72-96, `Start`
        if s.enabled then some (s.put i { g with pc := .listening })
        else some { s.put i { g with pc := .listening, reader := .waiting } with enabled := true, current := some i }
      else none
    | none => none
  | .stop =>
    -- gossip.go:99-110, `Stop`
    if s.enabled then
      match s.current with
      | some i => match s.gens[i]? with
        | some g => some { s.put i { g with stopped := true } with enabled := false, current := none }
        | none => none
      | none => none
    else some s
  | .cancel =>
    match s.cancelOf with
    | some i => match s.gens[i]? with
      | some g => some { s.put i { g with cancelled := true } with cancelOf := none }
      | none => none
    | none => some s
  | .cancelGen i =>
    match s.gens[i]? with
    | some g => some (s.put i { g with cancelled := true })
    | none => none
  | .over => some { s with gens := s.gens.map fun g => { g with cancelled := true }, over := true }
  | .publish x => if s.enabled then some { s with published := s.published ++ [x] } else some s
  | .message i =>
    match s.gens[i]? with
    | some g => if g.reader = .waiting then some (s.put i { g with reader := .holding }) else none
    | none => none
  | .failed i =>
    match s.gens[i]? with
    | some g => if g.reader = .waiting ∧ g.done then some (s.put i { g with reader := .returned }) else none
    | none => none
  | .send i =>
    match s.gens[i]? with
    | some g =>
      if g.reader = .holding then
        if g.pc = .returned then some { s with crashed := true }
        else if g.chan < cap then some (s.put i { g with reader := .waiting, chan := g.chan + 1 })
        else none
      else none
    | none => none
  | .quit i =>
    match s.gens[i]? with
    | some g => if g.reader = .holding ∧ g.done then some (s.put i { g with reader := .returned }) else none
    | none => none
  | .receive i =>
    match s.gens[i]? with
    | some g => if g.pc = .listening ∧ 0 < g.chan then some (s.put i { g with chan := g.chan - 1 }) else none
    | none => none
  | .leave i =>
    match s.gens[i]? with
    | some g => if g.pc = .listening ∧ g.cancelled then some (s.put i { g with pc := .returned }) else none
    | none => none

/-- Run a sequence of steps. -/
def run (cap : Cap) (s : State) : List Label → Option State
  | [] => some s
  | l :: ls => match step cap s l with
    | some s' => run cap s' ls
    | none => none

def Reachable (cap : Cap) (s : State) : Prop := ∃ ls, run cap init ls = some s

end GossipRun
end KP2P
