import Verif.Base.Basic
/-!
# Model of closing the node: internal/node/node.go `Close`, the connections of the host, and the connection manager

libp2p (v0.30, outside the repository) is represented by what its swarm promises: a connection is announced to the
registered notifiee by a call of `Connected` when it is made and of `Disconnected` when it has been closed; the second call
is made only after the first has returned; closing the host closes every connection, admits no new one, and waits until all
these calls have returned. Both callbacks of the connection manager (connection_manager.go:126-133) send on unbuffered
channels (lines 94-95) and do nothing else, so they return when the manager loop receives.

Simplifications: peers and addresses do not matter here (what the loop does with a notification is in
`Model/ConnManager`); the three queries are one; all connections are closed in one step of `Close`; `EnableGossip` (node.go:375)
is one step, taken apart in `Model/GossipServ`; errors of `Host.Close` are not modelled.
-/

namespace KP2P
namespace Closing

/-- A connection of the host. -/
inductive Link where
  /-- `Connected` has been called and has not returned (line 127); `closed`: the connection is closed already -/
  | opening (closed : Bool)
  | up
  /-- `Disconnected` has been called and has not returned (line 132) -/
  | leaving
  | gone
  deriving DecidableEq, Repr

/-- The manager loop (connection_manager.go:323-346). -/
inductive Mgr where
  /-- the goroutine of `Start` (lines 350-360) has not spawned it: it still has to announce `todo` peers (lines 351-356) -/
  | starting (todo : Nat)
  /-- in its `select` -/
  | serving
  /-- in `handleGet…`, with a reply in hand (lines 276-279, 283-286, 292-295); `heard`: the caller still waits for it -/
  | replying (heard : Bool)
  | ended
  deriving DecidableEq, Repr

/-- Where `Close` is (node.go:374-382). -/
inductive Close where
  | notYet
  /-- line 375 is done -/
  | quiet
  /-- in `Host.Close`, line 377 -/
  | waiting
  | returned
  deriving DecidableEq, Repr

structure State where
  links : List Link
  mgr : Mgr
  /-- the node's context has ended -/
  ctxDone : Bool
  close : Close
  deriving DecidableEq, Repr

/-- node.go:405-421: the manager is started while the host has `already` connections. -/
def init (already : Nat) : State :=
  { links := List.replicate already .up, mgr := .starting already, ctxDone := false, close := .notYet }

inductive Label where
  /-- a connection is made (libp2p) -/
  | connect
  /-- connection `i` is closed, by the other side or by `ClosePeer` (node.go:427) -/
  | drop (i : Nat)
  /-- the loop receives from the `Connected` of connection `i` (line 326) -/
  | took (i : Nat)
  /-- the loop receives from the `Disconnected` of connection `i` (line 328) -/
  | left (i : Nat)
  /-- line 359 -/
  | spawn
  /-- the loop receives a query (lines 330-335) -/
  | ask
  /-- the caller takes the reply -/
  | answer
  /-- the caller's own context ends first (lines 151, 164, 177) -/
  | abandon
  /-- the loop gives up on the reply as its context has ended (lines 278, 285, 294) -/
  | skip
  /-- the node's context ends -/
  | cancel
  /-- lines 337-343 -/
  | finish
  /-- `Close` is called and does line 375 -/
  | close
  /-- `Close` calls `Host.Close` -/
  | hostClose
  /-- `Host.Close`, and with it `Close`, returns -/
  | done
  deriving DecidableEq, Repr

/-- What closing a connection does. -/
def Link.shut : Link → Link
  | .opening _ => .opening true
  | .up => .leaving
  | l => l

/-- One step; `none` if the label is not enabled. A peer can be announced by the goroutine of `Start` (line 354) only while
the loop receives, which it does not do before line 359; so there is no label for it. -/
def step (s : State) : Label → Option State
  | .connect =>
    if s.close = .notYet ∨ s.close = .quiet then some { s with links := s.links ++ [.opening false] } else none
  | .drop i => match s.links[i]? with
    | some (.opening false) => some { s with links := s.links.set i (.opening true) }
    | some .up => some { s with links := s.links.set i .leaving }
    | _ => none
  | .took i => match s.mgr, s.links[i]? with
    | .serving, some (.opening c) => some { s with links := s.links.set i (if c then .leaving else .up) }
    | _, _ => none
  | .left i => match s.mgr, s.links[i]? with
    | .serving, some .leaving => some { s with links := s.links.set i .gone }
    | _, _ => none
  | .spawn => match s.mgr with
    | .starting 0 => some { s with mgr := .serving }
    | _ => none
  | .ask => if s.mgr = .serving then some { s with mgr := .replying true } else none
  | .answer => if s.mgr = .replying true then some { s with mgr := .serving } else none
  | .abandon => if s.mgr = .replying true then some { s with mgr := .replying false } else none
  | .skip => match s.mgr with
    | .replying _ => if s.ctxDone then some { s with mgr := .serving } else none
    | _ => none
  | .cancel => some { s with ctxDone := true }
  | .finish => if s.mgr = .serving ∧ s.ctxDone = true then some { s with mgr := .ended } else none
  | .close => if s.close = .notYet then some { s with close := .quiet } else none
  | .hostClose => if s.close = .quiet then some { s with close := .waiting, links := s.links.map Link.shut } else none
  | .done => if s.close = .waiting ∧ ∀ l ∈ s.links, l = .gone then some { s with close := .returned } else none

def run (s : State) : List Label → Option State
  | [] => some s
  | l :: ls => match step s l with
    | some s' => run s' ls
    | none => none

end Closing
end KP2P
