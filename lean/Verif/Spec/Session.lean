import Verif.Model.Session
/-!
# Vocabulary for sessions: what can be read off the log
-/

namespace KP2P.Spec.Session
open KP2P.Session KP2P.PeerConn

/-- The errors of the failed handshakes and rounds. -/
def failures (log : List Ev) : List Err :=
  log.filterMap fun
    | .handshake _ e => e
    | .round _ (.err e) => some e
    | _ => none

/-- The errors sent to the error handler. -/
def reports (log : List Ev) : List Err := log.filterMap fun | .report e => some e | _ => none

/-- The errors not sent because the session was cancelled. -/
def drops (log : List Ev) : List Err := log.filterMap fun | .drop e => some e | _ => none

/-- Handshakes and rounds, the activity of the session towards the peer and the chain. -/
def activity (log : List Ev) : List Ev := log.filter fun | .handshake _ _ => true | .round _ _ => true | _ => false

/-- A handshake succeeded. -/
def Shook (log : List Ev) : Prop := ∃ cs, Ev.handshake cs none ∈ log

end KP2P.Spec.Session
