import Verif.Model.ConnManager
/-!
# How errors of peers lead to disconnection and refusal: error handler, connection manager and libp2p together

internal/p2p/error_handler.go (loop and gater), internal/p2p/connection_manager.go:126-133, 228-280, internal/node/node.go:423-433.

Simplifications: who reports an error (sessions, peer_connection.go:199-203 and 229-234; gossip, gossip.go) is left open: any
error may be reported for any connection that was established, also after its end (the session of a connection that has broken
reports how its question to the peer failed; errors of peers that never were connected have no effect and are left out);
reporting and handling are separate steps, and blocked reporters are a bag; the
look-up of the address (error_handler.go:121) and the bookkeeping after it are one step: the handler serves nothing else in
between, and the instant of the charge is taken for the instant of the look-up; contexts do not end. Assumption about libp2p, which is not part of the repository: a new connection is
established only after `InterceptAddrDial` or `InterceptAccept` and then `InterceptSecured` have allowed its address, some
time after that (the multiplexer is agreed upon in between, `InterceptUpgraded` allows everything, error_handler.go:230-232),
or never; `ClosePeer` ends the established connections of a peer, not those that are not established yet; `Connected` is
called before `Disconnected` for one connection; callbacks of different connections come in any order.
-/

namespace KP2P
namespace Enforce

/-- Observable events, newest first. -/
inductive Obs where
  /-- the last question about a connection is answered with yes -/
  | allowed (c : Conn) (t : Time)
  /-- a connection is established at the given instant -/
  | admitted (c : Conn) (t : Time)
  /-- a connection is refused -/
  | refused (c : Conn) (t : Time)
  /-- a misbehaviour over connection `c` is reported -/
  | reported (c : Conn) (e : Err)
  /-- the report is charged to address `a`, whose score is `score` afterwards -/
  | charged (c : Conn) (e : Err) (a : MAddr) (score : UInt64) (t : Time)
  /-- the report has no effect -/
  | ignored (c : Conn) (e : Err)
  /-- the node closes the connection -/
  | closed (c : Conn)
  /-- the connection ends for another reason -/
  | gone (c : Conn)
  deriving DecidableEq, Repr

structure State where
  now : Time
  eh : ErrHandler
  /-- connections that passed the first question to the gater -/
  knocking : List Conn
  /-- connections that passed the last question to the gater and are not established yet -/
  upgrading : List Conn
  /-- established connections -/
  live : List Conn
  /-- callbacks blocked in connection_manager.go:127 or 132 -/
  notes : List CM.Event
  cm : CM.State
  /-- errors whose senders are blocked on `PeerErrorChan` -/
  errs : List (Conn × Err)
  /-- the goroutines of error_handler.go:138-143 -/
  closing : List Bytes
  next : Nat
  /-- history of the error handler, oldest first -/
  hist : List (Time × ErrHandler.Event)
  log : List Obs

def init (t : Time) : State :=
  { now := t, eh := .new, knocking := [], upgrading := [], live := [], notes := [], cm := CM.init, errs := [], closing := [], next := 0
    hist := [], log := [] }

inductive Label where
  /-- `InterceptAddrDial` or `InterceptAccept` for a new connection (error_handler.go:215-222) -/
  | knock (peer : Bytes) (addr : MAddr)
  /-- `InterceptSecured` (error_handler.go:225-227) -/
  | secure (i : Nat)
  /-- libp2p establishes a connection that was allowed -/
  | establish (i : Nat)
  /-- the manager loop receives a callback (connection_manager.go:326-329) -/
  | note (i : Nat)
  | report (c : Conn) (e : Err)
  /-- error_handler.go:244-245 -/
  | handle (i : Nat)
  /-- node.go:426-427 -/
  | close (i : Nat)
  /-- the connection ends without our doing -/
  | hangUp (c : Conn)
  /-- gossip asks for the score of an address (error_handler.go:248-249) -/
  | query (addr : MAddr)
  | tick (d : Nat)
  deriving DecidableEq, Repr

/-- The next event of the error handler's loop. -/
def tell (d : Spec.Decay) (o : ErrOpts) (s : State) (e : ErrHandler.Event) : State × ErrHandler.Reaction :=
  let r := s.eh.handle d o s.now e
  ({ s with eh := r.1, hist := s.hist ++ [(s.now, e)] }, r.2)

/-- The score of an address as stored. -/
def scoreOf (h : ErrHandler) (a : MAddr) : UInt64 :=
  match h.scores.get a.ip with
  | some r => r.score
  | none => 0

/-- `Connected` of this connection is still to come. -/
def early (s : State) : CM.Event → Bool
  | .disconnected c => decide (CM.Event.connected c ∈ s.notes)
  | _ => false

/-- The connection was established at some time. -/
def met (log : List Obs) (c : Conn) : Bool :=
  log.any fun
    | .admitted c' _ => decide (c' = c)
    | _ => false

def step (d : Spec.Decay) (o : ErrOpts) (s : State) : Label → Option State
  | .knock p a =>
    let c : Conn := ⟨p, a, s.next⟩
    let r := tell d o { s with next := s.next + 1 } (.canConnect a)
    match r.2 with
    | .allowed true => some { r.1 with knocking := s.knocking ++ [c] }
    | _ => some { r.1 with log := .refused c s.now :: s.log }
  | .secure i =>
    match s.knocking[i]? with
    | none => none
    | some c =>
      let r := tell d o { s with knocking := s.knocking.eraseIdx i } (.canConnect c.addr)
      match r.2 with
      | .allowed true =>
        some { r.1 with upgrading := s.upgrading ++ [c], log := .allowed c s.now :: s.log }
      | _ => some { r.1 with log := .refused c s.now :: s.log }
  | .establish i =>
    match s.upgrading[i]? with
    | none => none
    | some c =>
      some { s with
        upgrading := s.upgrading.eraseIdx i
        live := s.live ++ [c]
        notes := s.notes ++ [.connected c]
        log := .admitted c s.now :: s.log }
  | .note i =>
    match s.notes[i]? with
    | none => none
    | some e => if early s e then none else some { s with notes := s.notes.eraseIdx i, cm := CM.step s.cm e }
  | .report c e => if met s.log c then some { s with errs := s.errs ++ [(c, e)], log := .reported c e :: s.log } else none
  | .handle i =>
    match s.errs[i]? with
    | none => none
    | some (c, e) =>
      let addr := CM.getPeerAddress s.cm c.peer
      let r := tell d o { s with errs := s.errs.eraseIdx i } (.perr c.peer addr e)
      let closing := match r.2 with
        | .disconnect (some p) => s.closing ++ [p]
        | _ => s.closing
      match addr with
      | some a => some { r.1 with closing := closing, log := .charged c e a (scoreOf r.1.eh a) s.now :: s.log }
      | none => some { r.1 with closing := closing, log := .ignored c e :: s.log }
  | .close i =>
    match s.closing[i]? with
    | none => none
    | some p =>
      let hit := s.live.filter fun c => c.peer == p
      some { s with
        closing := s.closing.eraseIdx i
        live := s.live.filter fun c => !(c.peer == p)
        notes := s.notes ++ hit.map CM.Event.disconnected
        log := (hit.map Obs.closed).reverse ++ s.log }
  | .hangUp c =>
    if c ∈ s.live then some { s with live := s.live.erase c, notes := s.notes ++ [.disconnected c], log := .gone c :: s.log }
    else none
  | .query a => some (tell d o s (.getScore a)).1
  | .tick n => some { s with now := s.now + n }

def run (d : Spec.Decay) (o : ErrOpts) (s : State) : List Label → Option State
  | [] => some s
  | l :: ls => match step d o s l with
    | some s' => run d o s' ls
    | none => none

def Reachable (d : Spec.Decay) (o : ErrOpts) (s : State) : Prop := ∃ t ls, run d o (init t) ls = some s

end Enforce
end KP2P
