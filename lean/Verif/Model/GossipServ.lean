import Verif.Model.GossipRun
import Verif.Model.GossipToggle
/-!
# Model of the gossip service as a whole: toggle, both topics, closing the node, statistics

internal/p2p/gossip_toggle.go:44-104 (`Start`), internal/p2p/gossip.go:197-281 (`EnableGossip`, `StartGossip`, `StopGossip`,
`PublishTransaction`, `PublishBlock`), internal/node/node.go:304-310 (`IsEnabled`), 374-382 (`Close`).

The two topics are two copies of `GossipRun`. What `GossipRun` has in one step, lines 242-245 of `StopGossip`, is here in
single steps, because the field `kg.gossipCancel` is not protected by a mutex and both the toggle and `Close` may be there at
the same time. The steps of the toggle's goroutine, of `Close`, of the listeners and readers of both topics, of the
publishers and of the statistics goroutines interleave freely.

Simplifications: `GetNumConnections` answers (its answer is in the label `tick`); `BroadcastGossipStatus` returns (that it was
called is recorded, whether the broadcast went through does not matter to the node); `Host.Close` is one step without effect
on the rest; `Close` is called once; counting a message and publishing it is one step.
-/

namespace KP2P
namespace Serv

/-- The next statement of a call of `EnableGossip` (gossip.go:197-210). -/
inductive Call where
  /-- `StartGossip` (lines 213-234) -/
  | start
  /-- line 240 -/
  | stopBlock
  /-- line 241 -/
  | stopTx
  /-- line 242, the test -/
  | check
  /-- line 243 -/
  | cancel
  /-- line 244 -/
  | clear
  /-- line 201 or 206 -/
  | tell (on : Bool)
  deriving DecidableEq, Repr

/-- gossip.go:198: which branch. -/
def Call.first (on : Bool) : Call := if on then .start else .stopBlock

/-- The toggle's goroutine (gossip_toggle.go:45-103). -/
inductive Tog where
  /-- not yet run -/
  | fresh
  /-- at the `select` of lines 66-70 -/
  | idle
  /-- in `EnableGossip` -/
  | calling (on : Bool) (c : Call)
  /-- between `EnableGossip` and the assignment to `enabled` -/
  | setting (on : Bool)
  | returned
  deriving DecidableEq, Repr

/-- A call of `Close` (node.go:374-382). -/
inductive Closer where
  | notYet
  /-- in `EnableGossip` -/
  | calling (c : Call)
  /-- before line 377 -/
  | host
  | closed
  deriving DecidableEq, Repr

/-- A statistics goroutine (gossip.go:220-234). -/
inductive Stat where
  | sleeping
  /-- between lines 224 and 225, with the number of blocks in hand -/
  | took (blocks : UInt32)
  | returned
  deriving DecidableEq, Repr

structure State where
  block : GossipRun.State
  tx : GossipRun.State
  /-- `kg.gossipCancel`: the generation whose cancel function it points to -/
  ptr : Option Nat
  tog : Tog
  /-- `GossipToggle.enabled`, the answer of the status RPC -/
  enabled : Bool
  headTime : UInt64
  close : Closer
  /-- the calls of `BroadcastGossipStatus`, oldest first -/
  told : List Bool
  /-- `kg.recentBlocks` -/
  blocks : UInt32
  /-- `kg.recentTrxs` -/
  trxs : UInt32
  /-- the statistics goroutines, one for each call of `StartGossip` -/
  stats : List Stat
  /-- the numbers logged in line 228, oldest first -/
  logged : List (UInt32 × UInt32)
  /-- line 243 has dereferenced a nil pointer -/
  panicked : Bool
  deriving DecidableEq, Repr

/-- After `NewKoinosP2PNode`. -/
def init : State :=
  ⟨GossipRun.init, GossipRun.init, none, .fresh, false, 0, .notYet, [], 0, 0, [], [], false⟩

/-- The process has panicked. -/
def State.dead (s : State) : Bool := s.block.crashed || s.tx.crashed || s.panicked

/-- Steps of `GossipRun` that are made by the listener, the reader or a publisher of the topic. -/
def own : GossipRun.Label → Bool
  | .launch _ | .publish _ | .message _ | .failed _ | .send _ | .quit _ | .receive _ | .leave _ => true
  | .start | .stop | .cancel | .cancelGen _ | .over => false

inductive Label where
  /-- a step of the block topic's own goroutines -/
  | block (l : GossipRun.Label)
  /-- the same for the transaction topic -/
  | tx (l : GossipRun.Label)
  /-- the toggle's goroutine begins (gossip_toggle.go:46-60) -/
  | begin
  /-- `UpdateHeadTime` -/
  | head (t : UInt64)
  /-- the ticker fires, `GetNumConnections` answers, and the decision is taken (lines 69-96) -/
  | tick (conns : Int) (now : Int)
  /-- the toggle's `select` takes `ctx.Done()` -/
  | leave
  /-- the toggle makes the next statement of its call of `EnableGossip` -/
  | toggle
  /-- the toggle assigns `enabled` -/
  | set
  /-- `Close` is called -/
  | close
  /-- `Close` makes its next statement -/
  | closing
  /-- the node's context ends -/
  | over
  /-- a minute has passed: the `i`-th statistics goroutine takes the number of blocks (line 224) -/
  | take (i : Nat)
  /-- it takes the number of transactions and logs both (lines 225-229) -/
  | log (i : Nat)
  /-- it takes `gossipCtx.Done()` -/
  | finish (i : Nat)
  deriving DecidableEq, Repr

/-- One statement of `EnableGossip`; the second component is the next statement, `none` at the end. -/
def act (cap : GossipRun.Cap) (s : State) : Call → Option (State × Option Call)
  | .start =>
    match GossipRun.step cap s.block .start, GossipRun.step cap s.tx .start with
    | some b, some t =>
      some ({ s with block := b, tx := t, ptr := some s.block.gens.length, stats := s.stats ++ [.sleeping] },
        some (.tell true))
    | _, _ => none
  | .stopBlock =>
    match GossipRun.step cap s.block .stop with
    | some b => some ({ s with block := b }, some .stopTx)
    | none => none
  | .stopTx =>
    match GossipRun.step cap s.tx .stop with
    | some t => some ({ s with tx := t }, some .check)
    | none => none
  | .check => some (s, some (if s.ptr.isSome then .cancel else .tell false))
  | .cancel =>
    match s.ptr with
    | none => some ({ s with panicked := true }, none)
    | some i =>
      match GossipRun.step cap s.block (.cancelGen i), GossipRun.step cap s.tx (.cancelGen i) with
      | some b, some t => some ({ s with block := b, tx := t }, some .clear)
      | _, _ => none
  | .clear => some ({ s with ptr := none }, some (.tell false))
  | .tell on => some ({ s with told := s.told ++ [on] }, none)

/-- One step; `none` if it is not possible. -/
def step (cap : GossipRun.Cap) (o : ToggleOpts) (s : State) (l : Label) : Option State :=
  if s.dead then none
  else match l with
  | .block l =>
    if own l then
      match GossipRun.step cap s.block l with
      | some b =>
        -- lines 271-277: counted if published
        some { s with block := b, blocks := if b.published.length = s.block.published.length then s.blocks else s.blocks + 1 }
      | none => none
    else none
  | .tx l =>
    if own l then
      match GossipRun.step cap s.tx l with
      | some t =>
        -- lines 252-258
        some { s with tx := t, trxs := if t.published.length = s.tx.published.length then s.trxs else s.trxs + 1 }
      | none => none
    else none
  | .begin =>
    if s.tog = .fresh then
      if o.alwaysEnable then some { s with tog := .calling true (Call.first true) }
      else if o.alwaysDisable then some { s with tog := .returned, enabled := false }
      else some { s with tog := .idle }
    else none
  | .head t => some { s with headTime := t }
  | .tick conns now =>
    if s.tog = .idle then
      let want := (Toggle.tick ⟨s.enabled, s.headTime, [], true⟩ conns now).enabled
      if want = s.enabled then some s
      else some { s with tog := .calling want (Call.first want) }
    else none
  | .leave => if s.tog = .idle ∧ s.block.over = true then some { s with tog := .returned } else none
  | .toggle =>
    match s.tog with
    | .calling on c => match act cap s c with
      | some (s', some c') => some { s' with tog := .calling on c' }
      | some (s', none) => some { s' with tog := .setting on }
      | none => none
    | _ => none
  | .set =>
    match s.tog with
    | .setting on => some { s with enabled := on, tog := if o.alwaysEnable then .returned else .idle }
    | _ => none
  | .close => if s.close = .notYet then some { s with close := .calling (Call.first false) } else none
  | .closing =>
    match s.close with
    | .calling c => match act cap s c with
      | some (s', some c') => some { s' with close := .calling c' }
      | some (s', none) => some { s' with close := .host }
      | none => none
    | .host => some { s with close := .closed }
    | _ => none
  | .over =>
    match GossipRun.step cap s.block .over, GossipRun.step cap s.tx .over with
    | some b, some t => some { s with block := b, tx := t }
    | _, _ => none
  | .take i =>
    match s.stats[i]? with
    | some .sleeping => some { s with stats := s.stats.set i (.took s.blocks), blocks := 0 }
    | _ => none
  | .log i =>
    match s.stats[i]? with
    | some (.took n) =>
      some { s with
        stats := s.stats.set i .sleeping, trxs := 0,
        logged := if n > 0 ∨ s.trxs > 0 then s.logged ++ [(n, s.trxs)] else s.logged }
    | _ => none
  | .finish i =>
    match s.stats[i]?, s.block.gens[i]? with
    | some .sleeping, some g => if g.cancelled then some { s with stats := s.stats.set i .returned } else none
    | _, _ => none

/-- Run a sequence of steps. -/
def run (cap : GossipRun.Cap) (o : ToggleOpts) (s : State) : List Label → Option State
  | [] => some s
  | l :: ls => match step cap o s l with
    | some s' => run cap o s' ls
    | none => none

end Serv
end KP2P
