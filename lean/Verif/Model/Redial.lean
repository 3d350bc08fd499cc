import Verif.Base.Basic
/-!
# Model of internal/p2p/connection_manager.go, `connectInitialPeers`: redialling of the initial peers
-/

namespace KP2P
namespace Redial

/-- connection_manager.go:307-314: one round over the initial peers (the order of the list stands for the
unspecified map iteration order); `connected` is the reply of `IsConnected` when it is asked, `dial` the result of
`host.Connect`. Returns the peers dialled and the errors logged, in order. -/
def dialRound (connected : Bytes → Bool) (dial : Bytes → Option Err) : List Bytes → List Bytes × List Err
  | [] => ([], [])
  | p :: rest =>
    let r := dialRound connected dial rest
    if !connected p then
      match dial p with
      | some e => (p :: r.1, e :: r.2)
      | none => (p :: r.1, r.2)
    else r

/-- Where the loop is: about to look at the next peer (lines 307, 308), in `host.Connect` (line 310), or in the `select` of
lines 316-319 with the timer set for the given time. -/
inductive PC where
  | asking (todo : List Bytes)
  | dialling (p : Bytes) (todo : List Bytes)
  | sleeping (wake : Time)
  deriving DecidableEq, Repr

/-- What happened, for stating properties. -/
inductive Obs where
  | started (t : Time)
  | asked (p : Bytes) (connected : Bool)
  | dialled (p : Bytes)
  | failed (p : Bytes) (e : Err)
  | ended (t : Time)
  | cancelled
  deriving DecidableEq, Repr

/-- `cancelled`: the context is done; `gone`: the manager loop has returned (line 343) and receives no more queries. The copy
of the map in lines 299-304 is not used and left out. -/
structure State where
  pc : PC
  now : Time
  cancelled : Bool
  gone : Bool
  log : List Obs
  deriving DecidableEq, Repr

/-- connection_manager.go:358: the goroutine starts with the first round; `order` is the order in which the map is gone
through. -/
def init (now : Time) (order : List Bytes) : State :=
  { pc := .asking order, now := now, cancelled := false, gone := false, log := [.started now] }

inductive Label where
  /-- the query of line 308 returns; it is not received when the manager loop is gone (line 172) -/
  | answer (connected : Bool)
  | dialDone (e : Option Err)
  | roundEnd
  /-- the timer of line 317 fires, and the next round goes through the map in some order -/
  | sleepOver (order : List Bytes)
  /-- line 318: there is no `return`, so the next round begins -/
  | wakeCancelled (order : List Bytes)
  | cancel
  | managerEnds
  | tick (d : Nat)
  deriving DecidableEq, Repr

/-- The time between rounds (lines 300, 317). -/
def sleepTime : Int := 10 * 1000000000

/-- connection_manager.go:306-320: one step of the redial loop over the initial peers `peers`. -/
def step (peers : List Bytes) (s : State) : Label → Option State
  | .answer c =>
    match s.pc with
    | .asking (p :: rest) =>
      if s.gone then none
      else if c then some { s with pc := .asking rest, log := .asked p c :: s.log }
      else some { s with pc := .dialling p rest, log := .dialled p :: .asked p c :: s.log }
    | _ => none
  | .dialDone e =>
    match s.pc with
    | .dialling p rest =>
      match e with
      | some e => some { s with pc := .asking rest, log := .failed p e :: s.log }
      | none => some { s with pc := .asking rest }
    | _ => none
  | .roundEnd =>
    match s.pc with
    | .asking [] => some { s with pc := .sleeping (s.now + sleepTime), log := .ended s.now :: s.log }
    | _ => none
  | .sleepOver order =>
    match s.pc with
    | .sleeping t =>
      if t ≤ s.now ∧ order.Perm peers then some { s with pc := .asking order, log := .started s.now :: s.log } else none
    | _ => none
  | .wakeCancelled order =>
    match s.pc with
    | .sleeping _ =>
      if s.cancelled = true ∧ order.Perm peers then some { s with pc := .asking order, log := .started s.now :: s.log }
      else none
    | _ => none
  | .cancel => some { s with cancelled := true, log := .cancelled :: s.log }
  | .managerEnds => if s.cancelled then some { s with gone := true } else none
  | .tick d => some { s with now := s.now + d }

def run (peers : List Bytes) (s : State) : List Label → Option State
  | [] => some s
  | l :: ls => match step peers s l with
    | some s' => run peers s' ls
    | none => none

/-- States that can be reached with the initial peers `peers`. -/
def Reachable (peers : List Bytes) (s : State) : Prop :=
  ∃ now order ls, order.Perm peers ∧ run peers (init now order) ls = some s

end Redial
end KP2P
