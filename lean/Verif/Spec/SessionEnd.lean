import Verif.Model.SessionEnd
/-!
# Vocabulary for the end of sessions
-/

namespace KP2P.Spec.Ending
open KP2P KP2P.PeerConn

/-- The number of handshakes in a log. -/
def handshakes (log : List Session.Ev) : Nat := log.countP fun | .handshake _ _ => true | _ => false

/-- The number of rounds of synchronisation in a log. -/
def rounds (log : List Session.Ev) : Nat := log.countP fun | .round _ _ => true | _ => false

/-- An infinite execution. -/
def Exec (o : Opts) (σ : Nat → Ending.State) (ev : Nat → Session.Label) : Prop :=
  ∀ n, Ending.step o (σ n) (ev n) = some (σ (n + 1))

/-- A step of the session's goroutine itself. -/
def Own : Session.Label → Prop
  | .handshake _ => True
  | .retryTimer => True
  | .round _ => True
  | .report => True
  | .sleepTimer => True
  | .seeDone => True
  | _ => False

/-- A step of one of the goroutines that report failed handshakes. -/
def OfReporter : Session.Label → Prop
  | .deliver _ => True
  | .giveUp _ => True
  | _ => False

/-- The session's goroutine is not held up for ever: its calls end, and a `select` with a ready case is left. -/
def FairOwn (o : Opts) (σ : Nat → Ending.State) (ev : Nat → Session.Label) : Prop :=
  ∀ n, (∀ m, n ≤ m → ∃ l, Own l ∧ (Ending.step o (σ m) l).isSome = true) → ∃ m, n ≤ m ∧ Own (ev m)

/-- Nor are the goroutines that report. -/
def FairReporters (o : Opts) (σ : Nat → Ending.State) (ev : Nat → Session.Label) : Prop :=
  ∀ n, (∀ m, n ≤ m → ∃ l, OfReporter l ∧ (Ending.step o (σ m) l).isSome = true) → ∃ m, n ≤ m ∧ OfReporter (ev m)

/-- The session's goroutine is no more. -/
def Over (s : Session.State) : Prop := s.phase = .ended ∨ s.phase = .crashed

end KP2P.Spec.Ending
