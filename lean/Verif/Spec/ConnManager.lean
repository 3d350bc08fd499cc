import Verif.Model.ConnManager
/-!
# Specification of connection tracking: the connections that are open according to the notifications
-/

namespace KP2P.Spec
open CM (Event)

/-- The connections reported open and not yet reported closed. -/
def openConns (evs : List Event) : List Conn :=
  evs.foldl (fun l e => match e with
    | .connected c => c :: l
    | .disconnected c => l.erase c
    | .shutdown => l) []

/-- A history in which no peer ever has two open connections, closings concern open connections, and the manager is
not shut down. -/
def SingleConns (evs : List Event) : Prop :=
  ∀ pre e post, evs = pre ++ e :: post → match e with
    | .connected c => ∀ c' ∈ openConns pre, c'.peer ≠ c.peer
    | .disconnected c => c ∈ openConns pre
    | .shutdown => False

/-- The peer was reported connected, and no connection of it was reported closed since. -/
def UpSince (evs : List Event) (p : Bytes) : Prop :=
  ∃ pre c post, evs = pre ++ .connected c :: post ∧ c.peer = p ∧ ∀ d, Event.disconnected d ∈ post → d.peer ≠ p

end KP2P.Spec
