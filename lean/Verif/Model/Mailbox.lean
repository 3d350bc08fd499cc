import Verif.Base.Basic
/-!
# Calls that hand a request to a loop and wait for the reply

The pattern of `ApplyBlock` (internal/p2p/applicator.go:105-115), `ApplyTransaction` (lines 119-130), the goroutine that
applies a block (lines 241, 267-281), `CanConnectAddr` (internal/p2p/error_handler.go:68-79) and `GetPeerErrorScore`
(lines 84-93): make a reply channel, send the request on a channel shared by all callers, then `select` on the reply and the
caller's context. The send is not part of the `select`. All these channels have room for ten requests (applicator.go:87-93,
error_handler.go:268-269); the queries of internal/p2p/connection_manager.go:143-180 have the same form with no room at all, but
an unbuffered reply channel, so that for them only the first half applies (for the second see C61).

Simplifications: requests are numbers; what the receiving loop does with a request is left open: it may answer each request it has
received once, at any later time or never; several receivers (the workers, applicator.go:413-432) count as one that can receive
while one of them can; that all receivers have ended, or are held up for good (C59, C83), is the one step `stop`.
-/

namespace KP2P
namespace Mail

/-- Observable events, newest first. -/
inductive Obs where
  | called (r : Nat)
  /-- the receiving loop has received the request -/
  | received (r : Nat)
  /-- the loop replies -/
  | answered (r : Nat)
  /-- the caller's context ends -/
  | expired (r : Nat)
  /-- the call returns, with the reply or because its context has ended -/
  | returned (r : Nat) (reply : Bool)
  | stopped
  deriving DecidableEq, Repr

structure State where
  /-- the loop can receive -/
  serving : Bool
  /-- requests in the channel, oldest first -/
  buf : List Nat
  /-- callers blocked in the send, oldest first -/
  blocked : List Nat
  /-- requests received and not answered -/
  held : List Nat
  /-- callers in the `select` -/
  waiting : List Nat
  next : Nat
  log : List Obs
  deriving DecidableEq, Repr

def init : State := { serving := true, buf := [], blocked := [], held := [], waiting := [], next := 0, log := [] }

inductive Label where
  /-- a further call is made -/
  | call
  /-- the loop receives the oldest request -/
  | receive
  /-- the loop replies to a request it has received; the reply channel has room for one (applicator.go:105, 119, 241,
  error_handler.go:68, 84) -/
  | answer (r : Nat)
  /-- the context of a call ends -/
  | expire (r : Nat)
  /-- the call takes the reply -/
  | takeReply (r : Nat)
  /-- the call returns because its context has ended -/
  | giveUp (r : Nat)
  | stop
  deriving DecidableEq, Repr

/-- One step; `cap` is the capacity of the channel. -/
def step (cap : Nat) (s : State) : Label → Option State
  | .call =>
    if s.buf.length < cap then
      some { s with buf := s.buf ++ [s.next], waiting := s.waiting ++ [s.next], next := s.next + 1, log := .called s.next :: s.log }
    else some { s with blocked := s.blocked ++ [s.next], next := s.next + 1, log := .called s.next :: s.log }
  | .receive =>
    if s.serving then
      match s.buf, s.blocked with
      | b :: bs, [] => some { s with buf := bs, held := b :: s.held, log := .received b :: s.log }
      | b :: bs, c :: cs =>
        some { s with buf := bs ++ [c], blocked := cs, waiting := s.waiting ++ [c], held := b :: s.held, log := .received b :: s.log }
      | [], c :: cs => some { s with blocked := cs, waiting := s.waiting ++ [c], held := c :: s.held, log := .received c :: s.log }
      | [], [] => none
    else none
  | .answer r => if r ∈ s.held then some { s with held := s.held.erase r, log := .answered r :: s.log } else none
  | .expire r =>
    if r < s.next ∧ Obs.expired r ∉ s.log then some { s with log := .expired r :: s.log } else none
  | .takeReply r =>
    if r ∈ s.waiting ∧ Obs.answered r ∈ s.log then some { s with waiting := s.waiting.erase r, log := .returned r true :: s.log }
    else none
  | .giveUp r =>
    if r ∈ s.waiting ∧ Obs.expired r ∈ s.log then some { s with waiting := s.waiting.erase r, log := .returned r false :: s.log }
    else none
  | .stop => if s.serving then some { s with serving := false, log := .stopped :: s.log } else none

def run (cap : Nat) (s : State) : List Label → Option State
  | [] => some s
  | l :: ls => match step cap s l with
    | some s' => run cap s' ls
    | none => none

def Reachable (cap : Nat) (s : State) : Prop := ∃ ls, run cap init ls = some s

/-- An infinite execution. -/
def Exec (cap : Nat) (σ : Nat → State) (ev : Nat → Label) : Prop := ∀ n, step cap (σ n) (ev n) = some (σ (n + 1))

end Mail
end KP2P
