import Verif.Model.PeerConn
/-!
# Model of the session of a peer: `Start` and `connectionLoop` of internal/p2p/peer_connection.go

A labelled transition system over the pure functions of `Verif/Model/PeerConn.lean`.

Simplifications: a handshake and a synchronisation round are one step each (they only read replies; the last
irreversible block and the replies are part of the label and arbitrary); timers may fire at any time; when several
cases of a `select` are ready any may be chosen, as in Go.
-/

namespace KP2P
namespace Session
open PeerConn

/-- Where the session's goroutine is. -/
inductive Phase where
  /-- about to do a handshake (line 227) -/
  | handshake
  /-- waiting for the retry time (lines 239-243) -/
  | retryWait
  /-- about to do a synchronisation round (line 197) -/
  | sync
  /-- blocked in sending an error (lines 199-203) -/
  | reporting (e : Err)
  /-- sleeping, for the long or the short time (lines 207-217) -/
  | sleeping (long : Bool)
  | ended
  /-- a panic in the goroutine: the process is gone -/
  | crashed
  deriving DecidableEq, Repr

/-- Observable events, newest first. -/
inductive Ev where
  | handshake (calls : List Call) (err : Option Err)
  | round (calls : List Call) (out : Outcome)
  /-- an error is sent on the peer error channel -/
  | report (e : Err)
  /-- an error is not sent because the context is done -/
  | drop (e : Err)
  | cancel
  deriving DecidableEq, Repr

structure State where
  phase : Phase
  synced : Bool
  version : Option Version
  cancelled : Bool
  /-- the goroutines of lines 229-234, each with its error -/
  reporters : List Err
  log : List Ev
  deriving DecidableEq, Repr

/-- peer_connection.go:249-269 and 222-224: a started session. -/
def init : State :=
  { phase := .handshake, synced := false, version := none, cancelled := false, reporters := [], log := [] }

inductive Label where
  | handshake (e : HsEnv)
  | retryTimer
  | round (e : SyncEnv)
  /-- the error of a round is accepted by the error handler -/
  | report
  | sleepTimer
  /-- the goroutine sees that the context is done -/
  | seeDone
  /-- the `i`-th handshake error is accepted by the error handler -/
  | deliver (i : Nat)
  | giveUp (i : Nat)
  /-- the context is cancelled -/
  | cancel

/-- One step; `none` if the label is not enabled. -/
def step (o : Opts) (s : State) : Label → Option State
  | .handshake e =>
    if s.phase = .handshake then
      let r := PeerConn.handshake o e
      let v := match r.version with | some v => some v | none => s.version
      match r.err with
      | none => some { s with phase := .sync, version := v, log := .handshake r.calls none :: s.log }
      | some err => some { s with
          phase := .retryWait, version := v, reporters := s.reporters ++ [err],
          log := .handshake r.calls (some err) :: s.log }
    else none
  | .retryTimer => if s.phase = .retryWait then some { s with phase := .handshake } else none
  | .round e =>
    if s.phase = .sync then
      let r := requestSyncBlocks o e s.synced
      let s1 : State := { s with synced := r.synced, log := .round r.calls r.out :: s.log }
      match r.out with
      | .ok => some { s1 with phase := .sleeping r.synced }
      | .err err => some { s1 with phase := .reporting err }
      | .panic => some { s1 with phase := .crashed }
    else none
  | .report =>
    match s.phase with
    | .reporting e => some { s with phase := .sleeping s.synced, log := .report e :: s.log }
    | _ => none
  | .sleepTimer =>
    match s.phase with
    | .sleeping _ => some { s with phase := .sync }
    | _ => none
  | .seeDone =>
    if s.cancelled then
      match s.phase with
      | .retryWait => some { s with phase := .ended }
      | .sleeping _ => some { s with phase := .ended }
      | .reporting e => some { s with phase := .ended, log := .drop e :: s.log }
      | _ => none
    else none
  | .deliver i =>
    match s.reporters[i]? with
    | some e => some { s with reporters := s.reporters.eraseIdx i, log := .report e :: s.log }
    | none => none
  | .giveUp i =>
    if s.cancelled then
      match s.reporters[i]? with
      | some e => some { s with reporters := s.reporters.eraseIdx i, log := .drop e :: s.log }
      | none => none
    else none
  | .cancel => some { s with cancelled := true, log := .cancel :: s.log }

/-- Executions. -/
def run (o : Opts) (s : State) : List Label → Option State
  | [] => some s
  | l :: ls => match step o s l with
    | some s' => run o s' ls
    | none => none

def Reachable (o : Opts) (s : State) : Prop := ∃ ls, run o init ls = some s

end Session
end KP2P
