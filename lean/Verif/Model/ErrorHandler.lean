import Verif.Base.Basic
import Verif.Spec.ErrorHandler
import Mathlib.Analysis.SpecialFunctions.Pow.Real
/-!
# Model of internal/p2p/error_handler.go and internal/options/error_handler_options.go
-/

namespace KP2P
open Spec (Decay)

/-- A multiaddr `/ip4/1.2.3.4/tcp/8888/...`: `ma.Split(addr)[0].String()` is `ip`, the other components are
`rest`. An address without components (on which `ma.Split(addr)[0]` would panic) is not represented: libp2p never
hands one out for a connection. -/
structure MAddr where
  ip : Bytes
  rest : List Bytes := []
  deriving DecidableEq, Repr

/-- internal/options/error_handler_options.go:36-62. -/
structure ErrOpts where
  halflife : Int
  threshold : UInt64
  reconnect : UInt64
  deserialization : UInt64
  serialization : UInt64
  blockIrreversibility : UInt64
  blockApplication : UInt64
  unknownPreviousBlock : UInt64
  blockApplicationTimeout : UInt64
  maxPendingBlocks : UInt64
  transactionApplication : UInt64
  invalidNonce : UInt64
  chainIDMismatch : UInt64
  chainNotConnected : UInt64
  checkpointMismatch : UInt64
  localRPC : UInt64
  peerRPC : UInt64
  localRPCTimeout : UInt64
  peerRPCTimeout : UInt64
  processRequestTimeout : UInt64
  forkBomb : UInt64
  maxHeight : UInt64
  protocolMismatch : UInt64
  unknown : UInt64
  deriving DecidableEq, Repr

/-- internal/options/error_handler_options.go:7-33 and 65-92, the defaults. -/
def ErrOpts.default : ErrOpts where
  halflife := 30 * 60 * second
  threshold := 100000
  reconnect := 100000 / 2
  deserialization := 5000
  serialization := 0
  blockIrreversibility := 100
  blockApplication := 5000
  unknownPreviousBlock := 2500
  blockApplicationTimeout := 2500
  maxPendingBlocks := 1000
  transactionApplication := 100
  invalidNonce := 0
  chainIDMismatch := 100000 * 2
  chainNotConnected := 100000 * 2
  checkpointMismatch := 100000 * 2
  localRPC := 0
  peerRPC := 5000
  localRPCTimeout := 0
  peerRPCTimeout := 3500
  processRequestTimeout := 0
  forkBomb := 100000 * 2
  maxHeight := 5000
  protocolMismatch := 100000 * 2
  unknown := 5000

/-- error_handler.go:148-201, `getScoreForError`: the `switch`, in order. -/
def getScoreForError (o : ErrOpts) (e : Err) : UInt64 :=
  if e.is .transactionApplication then o.transactionApplication
  else if e.is .invalidNonce then o.invalidNonce
  else if e.is .blockApplication then o.blockApplication
  else if e.is .unknownPreviousBlock then o.unknownPreviousBlock
  else if e.is .blockApplicationTimeout then o.blockApplicationTimeout
  else if e.is .maxPendingBlocks then o.maxPendingBlocks
  else if e.is .maxHeight then o.maxHeight
  else if e.is .deserialization then o.deserialization
  else if e.is .blockIrreversibility then o.blockIrreversibility
  else if e.is .peerRPC then o.peerRPC
  else if e.is .peerRPCTimeout then o.peerRPCTimeout
  else if e.is .forkBomb then o.forkBomb
  else if e.is .chainIDMismatch then o.chainIDMismatch
  else if e.is .chainNotConnected then o.chainNotConnected
  else if e.is .checkpointMismatch then o.checkpointMismatch
  else if e.is .protocolMismatch then o.protocolMismatch
  else if e.is .localRPC then o.localRPC
  else if e.is .localRPCTimeout then o.localRPCTimeout
  else if e.is .serialization then o.serialization
  else if e.is .processRequestTimeout then o.processRequestTimeout
  else o.unknown

/-- error_handler.go:29-32, `errorScoreRecord`. -/
structure ScoreRec where
  lastUpdate : Int
  score : UInt64
  deriving DecidableEq, Repr

/-- error_handler.go:203-208, `decayErrorScore` at instant `now`. The arithmetic of line 206 is the parameter `d`;
`realDecay` below is its reading over the reals. -/
def ScoreRec.decay (d : Decay) (now : Int) (r : ScoreRec) : ScoreRec :=
  { lastUpdate := now, score := d (now - r.lastUpdate) r.score }

/-- error_handler.go:204 and 206 with exact real arithmetic: `uint64(score * exp(-(ln 2 / halflife) * elapsed))`.
Floating-point rounding is not modelled. -/
noncomputable def realDecay (halflife : Int) : Decay := fun t s =>
  UInt64.ofNat ⌊(s.toNat : ℝ) * Real.exp (-1 * (Real.log 2 / (halflife : ℝ)) * (t : ℝ))⌋₊

/-- error_handler.go:44-55, `PeerErrorHandler`: only the score map is state; the channels are represented by the
events below, which the single goroutine of `Start` (lines 241-255) handles one at a time. -/
structure ErrHandler where
  scores : GoMap Bytes ScoreRec

namespace ErrHandler

/-- error_handler.go:259-272, `NewPeerErrorHandler`. -/
def new : ErrHandler := ⟨∅⟩

/-- What the goroutine of `Start` receives (lines 243-249). `perr` carries the reply of `GetPeerAddress` at the
time of processing (line 121), `none` being a nil address. -/
inductive Event where
  | perr (peer : Bytes) (addr : Option MAddr) (err : Err)
  | canConnect (addr : MAddr)
  | getScore (addr : MAddr)
  deriving DecidableEq, Repr

/-- Reaction: the peer whose disconnection is requested (line 140), or the answer to the query. -/
inductive Reaction where
  | disconnect (peer : Option Bytes)
  | allowed (b : Bool)
  | score (s : UInt64)
  deriving DecidableEq, Repr

/-- error_handler.go:102-109, `handleCanConnect`. -/
def handleCanConnect (d : Decay) (o : ErrOpts) (h : ErrHandler) (now : Int) (addr : MAddr) : ErrHandler × Bool :=
  match h.scores.get addr.ip with
  | some r =>
    let r' := r.decay d now
    (⟨h.scores.set addr.ip r'⟩, decide (r'.score < o.reconnect))
  | none => (h, true)

/-- error_handler.go:111-118, `handleGetPeerErrorScore`. -/
def handleGetScore (d : Decay) (h : ErrHandler) (now : Int) (addr : MAddr) : ErrHandler × UInt64 :=
  match h.scores.get addr.ip with
  | some r =>
    let r' := r.decay d now
    (⟨h.scores.set addr.ip r'⟩, r'.score)
  | none => (h, 0)

/-- error_handler.go:120-146, `handleError`. Returns the disconnection request of lines 137-144, if any (the
goroutine that delivers it is not modelled further). -/
def handleError (d : Decay) (o : ErrOpts) (h : ErrHandler) (now : Int) (peer : Bytes) (addr : Option MAddr)
    (err : Err) : ErrHandler × Option Bytes :=
  match addr with
  | none => (h, none)
  | some a =>
    let r := match h.scores.get a.ip with
      | some r => { r.decay d now with score := (r.decay d now).score + getScoreForError o err }
      | none => { lastUpdate := now, score := getScoreForError o err }
    (⟨h.scores.set a.ip r⟩, if r.score ≥ o.threshold then some peer else none)

/-- error_handler.go:236-256, one turn of the loop of `Start`. -/
def handle (d : Decay) (o : ErrOpts) (h : ErrHandler) (now : Int) : Event → ErrHandler × Reaction
  | .perr p a e => let r := h.handleError d o now p a e; (r.1, .disconnect r.2)
  | .canConnect a => let r := h.handleCanConnect d o now a; (r.1, .allowed r.2)
  | .getScore a => let r := h.handleGetScore d now a; (r.1, .score r.2)

/-- A history of timed events. -/
def run (d : Decay) (o : ErrOpts) (h : ErrHandler) : List (Int × Event) → ErrHandler
  | [] => h
  | (t, e) :: rest => run d o (h.handle d o t e).1 rest

/-- error_handler.go:58-64, `CanConnect`, given the reply of `GetPeerAddress` and the answer of the loop:
a peer without known address may always connect. The context-cancelled branch is not modelled. -/
def canConnectPeer (addr : Option MAddr) (answer : MAddr → Bool) : Bool :=
  match addr with
  | some a => answer a
  | none => true

/-- error_handler.go:83-96, `GetPeerErrorScore`, likewise. -/
def peerErrorScore (addr : Option MAddr) (answer : MAddr → UInt64) : UInt64 :=
  match addr with
  | some a => answer a
  | none => 0

/-- error_handler.go:210-233, the five `Intercept…` methods of the connection gater, in file order: peer dial
(by peer id), address dial, accept, secured (all by remote address) and upgraded (always allowed). -/
inductive Gate where
  | peerDial (addr : Option MAddr)
  | addrDial (addr : MAddr)
  | accept (addr : MAddr)
  | secured (addr : MAddr)
  | upgraded
  deriving DecidableEq, Repr

def intercept (answer : MAddr → Bool) : Gate → Bool
  | .peerDial a => canConnectPeer a answer
  | .addrDial a => answer a
  | .accept a => answer a
  | .secured a => answer a
  | .upgraded => true

end ErrHandler

/-! ### The concerned entries of a history -/

/-- The account entry an event makes at address `ip`, if it concerns it. -/
def ErrHandler.Event.entryFor (o : ErrOpts) (ip : Bytes) : ErrHandler.Event → Option Spec.Entry
  | .perr _ (some a) e => if a.ip = ip then some (.charge (getScoreForError o e)) else none
  | .perr _ none _ => none
  | .canConnect a => if a.ip = ip then some .read else none
  | .getScore a => if a.ip = ip then some .read else none

/-- The account entries of address `ip` in a history. -/
def entriesFor (o : ErrOpts) (ip : Bytes) (hist : List (Int × ErrHandler.Event)) : List (Int × Spec.Entry) :=
  hist.filterMap fun e => (e.2.entryFor o ip).map fun x => (e.1, x)

end KP2P
