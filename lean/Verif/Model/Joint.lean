import Verif.Model.Enforce
import Verif.Model.Session
/-!
# Sessions, connection manager and error handler together

internal/p2p/peer_connection.go:193-245 (sessions), internal/p2p/connection_manager.go:228-268 (which start and end them),
internal/p2p/error_handler.go:120-146 and 236-256 (which hears of their errors), internal/node/node.go:423-433. The parts are
`Verif/Model/Session.lean` and `Verif/Model/Enforce.lean`; here a session belongs to a connection, is started and cancelled by
the manager, and what it reports is what the error handler hears.

Simplifications: those of the two parts. A session that has reported an error goes on while the error is dealt
with; `errs` of the second part holds what is being sent and what the handler has received (the channel is unbuffered,
node.go:83), so here more errors may be on their way at a time than in the code.
-/

namespace KP2P
namespace Joint

structure State where
  net : Enforce.State
  /-- the sessions in the order of their start, each with its connection; the manager knows them by their position -/
  sess : List (Conn × Session.State)

def init (t : Time) : State := { net := Enforce.init t, sess := [] }

inductive Label where
  /-- a step of libp2p, the manager, the error handler or the node; not a report -/
  | net (l : Enforce.Label)
  /-- gossip reports an error of the peer a message was received from (gossip.go:349-401, through `PeerErrorChan`) -/
  | gossip (c : Conn) (e : Err)
  /-- a step of the `k`-th session, which is one with peer `p`; not its cancellation -/
  | session (p : Bytes) (k : Nat) (l : Session.Label)

/-- connection_manager.go:250-253: the session of the connection is started; 262-266: the one of the peer is cancelled. `a` and
`b` are the manager before and after it has dealt with the notification. -/
def follow (a b : CM.State) (e : CM.Event) (sess : List (Conn × Session.State)) : List (Conn × Session.State) :=
  match e with
  | .connected c => if b.started.length = a.started.length then sess else sess ++ [(c, Session.init)]
  | .disconnected c =>
    match a.peers.get c.peer with
    | some x =>
      if a.stopped then sess
      else sess.modify x.session fun y => (y.1, { y.2 with cancelled := true, log := .cancel :: y.2.log })
    | none => sess
  | .shutdown => sess

/-- The error a session sends in this step (peer_connection.go:200 and 231). -/
def told (st : Session.State) : Session.Label → Option Err
  | .report => match st.phase with
    | .reporting e => some e
    | _ => none
  | .deliver i => st.reporters[i]?
  | _ => none

/-- Is the label a report? Those come from sessions and gossip. -/
def isReport : Enforce.Label → Bool
  | .report _ _ => true
  | _ => false

/-- Is the label a cancellation? Those come from the manager. -/
def isCancel : Session.Label → Bool
  | .cancel => true
  | _ => false

/-- A panic in any session is the end of the process. -/
def dead (s : State) : Bool := s.sess.any fun x => decide (x.2.phase = .crashed)

def step (d : Spec.Decay) (eo : ErrOpts) (o : PeerConn.Opts) (s : State) (l : Label) : Option State :=
  if dead s then none else
  match l with
  | .net l =>
    if isReport l then none else
    match Enforce.step d eo s.net l with
    | none => none
    | some n =>
      match l with
      | .note i =>
        match s.net.notes[i]? with
        | some e => some { net := n, sess := follow s.net.cm n.cm e s.sess }
        | none => some { s with net := n }
      | _ => some { s with net := n }
  | .gossip c e =>
    match Enforce.step d eo s.net (.report c e) with
    | some n => some { s with net := n }
    | none => none
  | .session p k l =>
    if isCancel l then none else
    match s.sess[k]? with
    | none => none
    | some (c, st) =>
      if c.peer = p then
        match Session.step o st l with
        | none => none
        | some st' =>
          match told st l with
          | none => some { s with sess := s.sess.set k (c, st') }
          | some e =>
            match Enforce.step d eo s.net (.report c e) with
            | some n => some { net := n, sess := s.sess.set k (c, st') }
            | none => none
      else none

def run (d : Spec.Decay) (eo : ErrOpts) (o : PeerConn.Opts) (s : State) : List Label → Option State
  | [] => some s
  | l :: ls => match step d eo o s l with
    | some s' => run d eo o s' ls
    | none => none

end Joint
end KP2P
