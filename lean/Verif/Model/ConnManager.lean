import Verif.Base.Basic
import Verif.Model.ErrorHandler
/-!
# Model of internal/p2p/connection_manager.go (tracking of peers, start-up, queries)
-/

namespace KP2P

/-- A libp2p connection: `conn.RemotePeer()`, `conn.RemoteMultiaddr()` and its identity. -/
structure Conn where
  peer : Bytes
  addr : MAddr
  num : Nat
  deriving DecidableEq, Repr

namespace CM

/-- connection_manager.go:43-47, `peerConnectionContext`; `session` numbers the `PeerConnection` created together
with its cancel function. -/
structure PeerCtx where
  conn : Conn
  session : Nat
  deriving DecidableEq, Repr

/-- The state of the manager loop: `connectedPeers` (line 62) plus ghosts: every session ever started, with its
peer, in order (its number is its position), and the sessions cancelled so far. -/
structure State where
  peers : GoMap Bytes PeerCtx
  started : List Bytes
  cancelled : List Nat
  stopped : Bool

def init : State := { peers := ∅, started := [], cancelled := [], stopped := false }

/-- connection_manager.go:228-254, `handleConnected`. -/
def handleConnected (s : State) (c : Conn) : State :=
  if s.peers.has c.peer then s
  else { s with
    peers := s.peers.set c.peer { conn := c, session := s.started.length }
    started := s.started ++ [c.peer] }

/-- connection_manager.go:256-268, `handleDisconnected`. -/
def handleDisconnected (s : State) (c : Conn) : State :=
  match s.peers.get c.peer with
  | some p => { s with peers := s.peers.del c.peer, cancelled := p.session :: s.cancelled }
  | none => s

/-- connection_manager.go:337-343, cancellation of the manager. -/
def shutdown (s : State) : State :=
  { s with cancelled := s.peers.entries.map (fun e => e.2.session) ++ s.cancelled, peers := ∅, stopped := true }

/-- connection_manager.go:323-346: the notifications the loop handles. -/
inductive Event where
  | connected (c : Conn)
  | disconnected (c : Conn)
  | shutdown
  deriving DecidableEq, Repr

def step (s : State) (e : Event) : State :=
  if s.stopped then s else
  match e with
  | .connected c => handleConnected s c
  | .disconnected c => handleDisconnected s c
  | .shutdown => shutdown s

def run (evs : List Event) : State := evs.foldl step init

/-- connection_manager.go:270-280, `handleGetPeerAddress`. -/
def getPeerAddress (s : State) (p : Bytes) : Option MAddr := (s.peers.get p).map fun c => c.conn.addr

/-- connection_manager.go:282-287, `handleGetNumConnections`. -/
def getNumConnections (s : State) : Nat := s.peers.len

/-- connection_manager.go:289-296, `handleIsConnected`. -/
def isConnected (s : State) (p : Bytes) : Bool := s.peers.has p

/-! ### Start-up and queries -/

/-- connection_manager.go:349-361: the goroutine of `Start` first announces the already connected peers (lines
351-356), then spawns the loop. -/
inductive Phase where
  | announcing (todo : List Conn)
  | spawned
  deriving DecidableEq, Repr

/-- Where the manager loop is (lines 323-346): not spawned yet, waiting in its `select`, or inside one of the
`handleGet…` functions trying to hand the reply of query `q` to its caller (lines 276-279, 283-286, 292-295). -/
inductive Loop where
  | notRunning
  | serving
  | replying (q : Nat)
  deriving DecidableEq, Repr

/-- State of the start-up/query protocol. All channels are unbuffered (lines 94-99), so a send happens only
together with the receive. `callbacks` are libp2p notification callbacks blocked in `Connected`/`Disconnected`
(lines 126-133); `asking`/`awaiting` are callers blocked in sending a query (lines 146, 159, 172) and in waiting
for its reply (lines 148, 161, 174); `handled` counts notifications handled, `answered` the queries answered. -/
structure Boot where
  phase : Phase
  loop : Loop
  callbacks : List Conn
  asking : List Nat
  awaiting : List Nat
  handled : Nat
  answered : List Nat
  deriving DecidableEq, Repr

/-- Start with the given already-connected peers. -/
def Boot.init (already : List Conn) : Boot :=
  { phase := .announcing already, loop := .notRunning, callbacks := [], asking := [], awaiting := [],
    handled := 0, answered := [] }

inductive BootLabel where
  /-- line 354: the start goroutine hands one already connected peer to the loop -/
  | announce
  /-- lines 358-359: the start goroutine spawns the loop (and the redial loop) and ends -/
  | spawn
  /-- libp2p calls `Connected`/`Disconnected` -/
  | notify (c : Conn)
  /-- the loop receives a notification from a blocked callback -/
  | deliver (c : Conn)
  /-- a caller issues query `q` -/
  | ask (q : Nat)
  /-- the loop receives query `q` (lines 330-335) -/
  | accept (q : Nat)
  /-- the loop hands over the reply, the caller takes it -/
  | reply (q : Nat)
  /-- the caller's own context ends while it waits for the reply (lines 151, 164, 177) -/
  | giveUp (q : Nat)
  deriving DecidableEq, Repr

/-- One step; `none` if the label is not enabled. Cancellation of the manager's own context is not part of this
protocol (it ends the manager). -/
def Boot.step (s : Boot) : BootLabel → Option Boot
  | .announce => match s.phase, s.loop with
    | .announcing (_ :: rest), .serving => some { s with phase := .announcing rest, handled := s.handled + 1 }
    | _, _ => none
  | .spawn => match s.phase with
    | .announcing [] => some { s with phase := .spawned, loop := .serving }
    | _ => none
  | .notify c => some { s with callbacks := s.callbacks ++ [c] }
  | .deliver c =>
    if c ∈ s.callbacks ∧ s.loop = .serving then
      some { s with callbacks := s.callbacks.erase c, handled := s.handled + 1 }
    else none
  | .ask q => if q ∈ s.asking ∨ q ∈ s.awaiting ∨ q ∈ s.answered then none else some { s with asking := s.asking ++ [q] }
  | .accept q =>
    if q ∈ s.asking ∧ s.loop = .serving then
      some { s with asking := s.asking.erase q, awaiting := q :: s.awaiting, loop := .replying q }
    else none
  | .reply q =>
    if s.loop = .replying q ∧ q ∈ s.awaiting then
      some { s with awaiting := s.awaiting.erase q, answered := q :: s.answered, loop := .serving }
    else none
  | .giveUp q =>
    if q ∈ s.awaiting then some { s with awaiting := s.awaiting.erase q } else none

def Boot.run (s : Boot) : List BootLabel → Option Boot
  | [] => some s
  | l :: ls => match s.step l with
    | some s' => Boot.run s' ls
    | none => none

end CM
end KP2P
