import Verif.Model.PeerConn
/-!
# Model of waiting for a peer's protocol version (internal/p2p/connection_manager.go:196-227), with time

`ProtoVersion.get` says which answer a list of look-ups leads to; this is the loop itself as a labelled transition system
with a clock. A look-up in the peer store takes no time. `lag` is the longest time the goroutine is kept from running
after one of the two channels of the `select` (lines 220-224) has become ready: time does not pass beyond that.
-/

namespace KP2P
namespace VersionWait
open PeerConn ProtoVersion

/-- internal/options/connection_manager_options.go:11-14, and the lag of the scheduler. -/
structure Times where
  retry : Nat
  timeout : Nat
  lag : Nat
  deriving DecidableEq, Repr

/-- connection_manager_options.go:6-7: the defaults. -/
def Times.default (lag : Nat) : Times := { retry := 50000000, timeout := 5000000000, lag := lag }

/-- Where the loop is: about to look (line 201), in the `select` with the timer set for the given time (lines 220-224), or
returned, with what and when. -/
inductive PC where
  | looking
  | waiting (timer : Time)
  | returned (r : Except Err Version) (at_ : Time)

structure State where
  pc : PC
  now : Time
  /-- when the context of line 197 ends by itself -/
  deadline : Time
  /-- when the caller's context was cancelled -/
  cancelledAt : Option Time
  /-- the look-ups made, newest first -/
  reads : List (Time × Seen)

/-- connection_manager.go:197-199: called at `t`. -/
def init (tm : Times) (t : Time) : State :=
  { pc := .looking, now := t, deadline := t + tm.timeout, cancelledAt := none, reads := [] }

/-- connection_manager.go:202-218: what one look-up leads to; `none`: look again later. -/
def settle (parse : Bytes → Option Version) (x : Seen) : Option (Except Err Version) :=
  match read x with
  | .error e => if e.is .protocolMismatch then some (.error e) else none
  | .ok s =>
    if s.length > 0 then
      if pfx.isPrefixOf s then
        match parse ((split s).getLastD []) with
        | none => some (.error (.sentinel .protocolMismatch))
        | some v => some (.ok v)
      else some (.error (.sentinel .protocolMismatch))
    else none

inductive Label where
  | look (x : Seen)
  | timer
  | expire
  | cancel
  | tick (d : Nat)

/-- One step of the loop of lines 200-226. -/
def step (parse : Bytes → Option Version) (tm : Times) (s : State) : Label → Option State
  | .look x =>
    match s.pc with
    | .looking =>
      match settle parse x with
      | some r => some { s with pc := .returned r s.now, reads := (s.now, x) :: s.reads }
      | none => some { s with pc := .waiting (s.now + tm.retry), reads := (s.now, x) :: s.reads }
    | _ => none
  | .timer =>
    match s.pc with
    | .waiting t => if t ≤ s.now then some { s with pc := .looking } else none
    | _ => none
  | .expire =>
    match s.pc with
    | .waiting _ =>
      if s.deadline ≤ s.now ∨ s.cancelledAt.isSome then
        some { s with pc := .returned (.error (.sentinel .protocolMissing)) s.now }
      else none
    | _ => none
  | .cancel => match s.cancelledAt with
    | none => some { s with cancelledAt := some s.now }
    | some _ => none
  | .tick d =>
    match s.pc with
    | .looking => none
    | .waiting t =>
      if s.now + d ≤ t + tm.lag ∧ s.now + d ≤ s.deadline + tm.lag ∧ s.now + d ≤ s.cancelledAt.getD (s.now + d) + tm.lag then
        some { s with now := s.now + d }
      else none
    | .returned _ _ => some { s with now := s.now + d }

def run (parse : Bytes → Option Version) (tm : Times) (s : State) : List Label → Option State
  | [] => some s
  | l :: ls => match step parse tm s l with
    | some s' => run parse tm s' ls
    | none => none

end VersionWait
end KP2P
