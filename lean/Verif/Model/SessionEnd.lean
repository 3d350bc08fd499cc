import Verif.Model.Session
/-!
# The end of a session: what a `select` sees when it is entered

The transition system of `Verif/Model/Session.lean` lets a timer fire at any time, also when the context was done before
the timer was started. The `select` statements of internal/p2p/peer_connection.go:213-217 and 239-243 are entered with a
timer just started (`time.After` in the same statement): a context that is done at that moment is the only case that is
ready, and the goroutine returns. Here that is modelled.

Simplification: the goroutine gets from `time.After(d)` to the `select` in less than `d` (one second, or the configured
`SyncedSleepTime`, or `HandshakeRetryTime`, which are meant to be positive).
-/

namespace KP2P
namespace Ending
open PeerConn Session

/-- A session, and whether its context was done already when the goroutine got to where it is now. -/
structure State where
  st : Session.State
  late : Bool
  deriving DecidableEq, Repr

/-- peer_connection.go:222-224. -/
def init : State := { st := Session.init, late := false }

/-- The cases of lines 214 and 240. -/
def isTimer : Session.Label → Bool
  | .retryTimer => true
  | .sleepTimer => true
  | _ => false

/-- One step: as in `Session.step`, but a timer is not ready in a `select` that was entered with the context done. -/
def step (o : Opts) (s : State) (l : Session.Label) : Option State :=
  if isTimer l && s.late then none
  else match Session.step o s.st l with
    | none => none
    | some st => some { st := st, late := if st.phase = s.st.phase then s.late else st.cancelled }

def run (o : Opts) (s : State) : List Session.Label → Option State
  | [] => some s
  | l :: ls => match step o s l with
    | some s' => run o s' ls
    | none => none

end Ending
end KP2P
