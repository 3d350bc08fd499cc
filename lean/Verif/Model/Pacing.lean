import Verif.Model.Session
/-!
# The session of a peer with a clock: `time.After` in internal/p2p/peer_connection.go

The transition system of `Verif/Model/Session.lean` with the time that passes. Simplification: a handshake or a round is
stamped with one instant, that of its end; the time it takes passes in ticks before it, so the distances below are
measured from the end of one attempt to the end of the next, and the waiting time lies between them.
-/

namespace KP2P
namespace Pacing
open PeerConn

/-- internal/options/peer_connection_options.go:34 and 36, the two durations used in waiting. -/
structure Times where
  retry : Time
  syncedSleep : Time
  deriving DecidableEq, Repr

/-- peer_connection_options.go:21 and 23, the defaults. -/
def Times.default : Times := { retry := 6 * second, syncedSleep := 10 * second }

/-- One handshake or round that took place: when, what, and whether the session was synced afterwards. -/
structure Stamp where
  at_ : Time
  what : Session.Ev
  synced : Bool
  deriving DecidableEq, Repr

structure State where
  st : Session.State
  now : Time
  /-- the instant the running timer fires -/
  due : Time
  /-- newest first -/
  stamps : List Stamp
  deriving DecidableEq, Repr

/-- peer_connection.go:222-224: the session is started at `t`. -/
def init (t : Time) : State := { st := Session.init, now := t, due := t, stamps := [] }

inductive Label where
  | tick (d : Nat)
  | act (l : Session.Label)

/-- The steps that wait for a timer. -/
def isTimer : Session.Label → Bool
  | .retryTimer => true
  | .sleepTimer => true
  | _ => false

/-- peer_connection.go:207-210, the time to sleep, and 240, the time to wait after a failed handshake: the timer started
on entering a waiting phase. -/
def timer (tm : Times) (now due : Time) (before after : Session.Phase) : Time :=
  if before = after then due
  else match after with
    | .retryWait => now + tm.retry
    | .sleeping synced => now + (if synced then tm.syncedSleep else second)
    | _ => due

/-- The handshake or round just made, if the step was one. -/
def stamp (now : Time) (l : Session.Label) (st : Session.State) : List Stamp :=
  match l with
  | .handshake _ => (st.log.head?.map fun e => ⟨now, e, st.synced⟩).toList
  | .round _ => (st.log.head?.map fun e => ⟨now, e, st.synced⟩).toList
  | _ => []

def step (o : Opts) (tm : Times) (s : State) : Label → Option State
  | .tick d => some { s with now := s.now + d }
  | .act l =>
    if isTimer l && decide (s.now < s.due) then none
    else match Session.step o s.st l with
      | none => none
      | some st => some
        { st := st, now := s.now, due := timer tm s.now s.due s.st.phase st.phase
          stamps := stamp s.now l st ++ s.stamps }

def run (o : Opts) (tm : Times) (s : State) : List Label → Option State
  | [] => some s
  | l :: ls => match step o tm s l with
    | some s' => run o tm s' ls
    | none => none

def Reachable (o : Opts) (tm : Times) (s : State) : Prop := ∃ t ls, run o tm (init t) ls = some s

end Pacing
end KP2P
