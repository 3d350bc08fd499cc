import Verif.Base.Basic
/-!
# Model of how the node learns the irreversible height while it starts

cmd/koinos-p2p/main.go:224-231, internal/node/node.go:267-281 (`handleForkUpdate`), 368-371 (`GetLastIrreversibleBlock`),
405-435 (`Start`).

The chain announces every advance of irreversibility by a broadcast; broadcasts are delivered in the order sent (AMQP), by the
request handler, which main.go:229 starts before line 231 starts the node. Heights stand for the whole block topology. Failed
attempts of node.go:408-412 change nothing and are left out.
-/

namespace KP2P
namespace StartUp

/-- Where `Start` is: before the reply of line 408 is computed by the chain, waiting for that reply, or past line 414. -/
inductive Fetch where
  | notYet
  | reply (h : Nat)
  | stored
  deriving DecidableEq, Repr

structure State where
  chain : Nat
  /-- broadcasts sent and not yet delivered, oldest first -/
  inFlight : List Nat
  fetch : Fetch
  /-- `libValue`; `none` before the first `Store` -/
  node : Option Nat
  /-- lines 418-421: gossip, sessions and applicator run -/
  up : Bool
  /-- a `Load` of line 370 found nothing and its type assertion panicked -/
  crashed : Bool
  deriving DecidableEq, Repr

def init (h : Nat) : State := ⟨h, [], .notYet, none, false, false⟩

inductive Label where
  /-- the chain makes a higher block irreversible and broadcasts it -/
  | advance (h : Nat)
  /-- the chain computes its reply to `GetForkHeads` -/
  | fetch
  /-- node.go:414 -/
  | store
  /-- node.go:417-421 -/
  | goUp
  /-- node.go:267-281 -/
  | deliver
  /-- gossip.go:362 or peer_connection.go:94 asks for the irreversible block -/
  | read
  deriving DecidableEq, Repr

def step (s : State) : Label → Option State
  | .advance h => if s.chain < h then some { s with chain := h, inFlight := s.inFlight ++ [h] } else none
  | .fetch => match s.fetch with
    | .notYet => some { s with fetch := .reply s.chain }
    | _ => none
  | .store => match s.fetch with
    | .reply h => some { s with fetch := .stored, node := some h }
    | _ => none
  | .goUp => if s.fetch = .stored then some { s with up := true } else none
  | .deliver => match s.inFlight with
    | h :: rest => some { s with inFlight := rest, node := some h }
    | [] => none
  | .read => if s.up then some { s with crashed := s.crashed || s.node.isNone } else none

def run (s : State) : List Label → Option State
  | [] => some s
  | l :: ls => match step s l with
    | some s' => run s' ls
    | none => none

def Reachable (s : State) : Prop := ∃ h ls, run (init h) ls = some s

end StartUp
end KP2P
