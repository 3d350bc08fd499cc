import Verif.Base.Basic
/-!
# Model of how the error handler, the connection manager and their callers wait for each other

internal/p2p/error_handler.go:57-96 (queries), 120-121 and 236-256 (loop); internal/p2p/connection_manager.go:143-154,
270-280, 323-346; internal/node/node.go:74-220 (construction), 405-435 (start).

Only who waits for whom is modelled, not the answers (`Model/ErrorHandler`, `Model/ConnManager`). Simplifications: the
callers' contexts do not end (`context.Background()` in error_handler.go:212-228, the context of the node in node.go:159);
a query waiting to be put into `canConnectChan` or `getPeerErrorScoreChan` and one already in it are not distinguished
(the channels hold ten); the other messages of the manager loop, which it handles without waiting for anyone but the
caller, are left out.
-/

namespace KP2P
namespace Wiring

/-- Where a query about a peer or an address is. -/
inductive Stage where
  /-- connection_manager.go:146, sending the question for the address of the peer -/
  | askAddr
  /-- connection_manager.go:148, waiting for the address -/
  | awaitAddr
  /-- error_handler.go:69 or 86 and the `select` after it -/
  | atHandler
  deriving DecidableEq, Repr

/-- The goroutine of error_handler.go:241-255: not started, in its `select`, or in line 121 asking for the address of the
peer of an error and waiting for it. -/
inductive Handler where
  | off
  | idle
  | askAddr (err : Nat)
  | awaitAddr (err : Nat)
  deriving DecidableEq, Repr

/-- The loop of connection_manager.go:323-346: not started, in its `select`, or in line 276 handing an address to a query
or to the error handler. -/
inductive Manager where
  | off
  | serving
  | replyQuery (q : Nat)
  | replyHandler
  deriving DecidableEq, Repr

structure State where
  /-- node.go:218 has been executed -/
  provider : Bool
  handler : Handler
  manager : Manager
  /-- queries not yet answered -/
  queries : List (Nat × Stage)
  /-- reported errors, their senders blocked on `PeerErrorChan` -/
  errors : List Nat
  answered : List Nat
  handledErrors : List Nat
  /-- nil-pointer panic in error_handler.go:59 or 85 -/
  crashed : Bool
  deriving DecidableEq, Repr

/-- After `libp2p.New` (node.go:129) has been given the gater. -/
def init : State := ⟨false, .off, .off, [], [], [], [], false⟩

inductive Label where
  /-- node.go:218 -/
  | setProvider
  /-- node.go:418, error_handler.go:236-241 -/
  | startHandler
  /-- node.go:420, connection_manager.go:359 -/
  | startManager
  /-- libp2p asks about an address (error_handler.go:215-228) -/
  | queryAddr (q : Nat)
  /-- libp2p asks about a peer: error_handler.go:210-213, or node.go:158-161 -/
  | queryPeer (q : Nat)
  /-- an error is reported -/
  | report (e : Nat)
  /-- the manager receives the question of a query -/
  | managerTakes (q : Nat)
  /-- the manager receives the question of the error handler -/
  | managerTakesHandler
  /-- the manager hands over the answer; `known`: it is not nil -/
  | managerReplies (known : Bool)
  /-- the error handler receives an error -/
  | handlerTakes (e : Nat)
  /-- the error handler answers a query -/
  | handlerAnswers (q : Nat)
  deriving DecidableEq, Repr

def step (s : State) (l : Label) : Option State :=
  if s.crashed then none else
  match l with
  | .setProvider => some { s with provider := true }
  | .startHandler => match s.handler with
    | .off => if s.provider then some { s with handler := .idle } else some s
    | _ => none
  | .startManager => match s.manager with
    | .off => some { s with manager := .serving }
    | _ => none
  | .queryAddr q => some { s with queries := s.queries ++ [(q, .atHandler)] }
  | .queryPeer q =>
    if s.provider then some { s with queries := s.queries ++ [(q, .askAddr)] } else some { s with crashed := true }
  | .report e => some { s with errors := s.errors ++ [e] }
  | .managerTakes q =>
    if s.manager = .serving ∧ (q, Stage.askAddr) ∈ s.queries then
      some { s with manager := .replyQuery q, queries := (q, .awaitAddr) :: s.queries.erase (q, .askAddr) }
    else none
  | .managerTakesHandler => match s.manager, s.handler with
    | .serving, .askAddr e => some { s with manager := .replyHandler, handler := .awaitAddr e }
    | _, _ => none
  | .managerReplies known => match s.manager with
    | .replyQuery q =>
      if (q, Stage.awaitAddr) ∈ s.queries then
        if known then
          some { s with manager := .serving, queries := (q, .atHandler) :: s.queries.erase (q, .awaitAddr) }
        else
          some { s with manager := .serving, queries := s.queries.erase (q, .awaitAddr), answered := q :: s.answered }
      else none
    | .replyHandler => match s.handler with
      | .awaitAddr e =>
        some { s with manager := .serving, handler := .idle, handledErrors := e :: s.handledErrors }
      | _ => none
    | _ => none
  | .handlerTakes e =>
    if s.handler = .idle ∧ e ∈ s.errors then
      some { s with handler := .askAddr e, errors := s.errors.erase e }
    else none
  | .handlerAnswers q =>
    if s.handler = .idle ∧ (q, Stage.atHandler) ∈ s.queries then
      some { s with queries := s.queries.erase (q, .atHandler), answered := q :: s.answered }
    else none

def run (s : State) : List Label → Option State
  | [] => some s
  | l :: ls => match step s l with
    | some s' => run s' ls
    | none => none

def Reachable (s : State) : Prop := ∃ ls, run init ls = some s

/-- The steps of the two loops, as opposed to new queries and errors from outside. -/
def Internal : Label → Bool
  | .managerTakes _ => true
  | .managerTakesHandler => true
  | .managerReplies _ => true
  | .handlerTakes _ => true
  | .handlerAnswers _ => true
  | _ => false

end Wiring
end KP2P
