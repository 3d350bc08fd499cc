import Verif.Model.Applicator
/-!
# The applicator together with the chain service it talks to

`internal/p2p/applicator.go` submits blocks to the chain service (line 375, `rpc/koinos_rpc.go:109-163`) and is told of
every block the chain accepts (`internal/node/node.go:138`, 223-240, `applicator.go:137-140`, 359-368). The model of the
applicator alone (`Model/Applicator.lean`) lets verdicts and announcements be anything. Here they come from a chain that
tells the truth:

* a block is accepted only on top of an accepted block, and once;
* every acceptance is announced, and the announcement is delivered at most once, at any later time and in any order
  (`deliver`; that it is delivered in the end is a fairness assumption where it is needed);
* the verdict "unknown previous block" is given only while the parent is not accepted, success only for an accepted block.

Simplifications: the chain may accept a block at any moment, whoever submitted it (`accept`): one submitted by the applicator
before its verdict is ready, one produced locally, or one whose reply is lost; any other verdict is possible at any time (more
behaviours than a real chain); heights of accepted blocks are not checked (more behaviours); the chain never undoes an
acceptance; fork-head announcements remain arbitrary.
-/

namespace KP2P
namespace Link

/-- The applicator, the ids and heights the chain has accepted, and the announcements under way. -/
structure State where
  app : AState
  accepted : List (Bytes × UInt64)
  news : List (Bytes × UInt64)

inductive Label where
  /-- the chain accepts block `id` on top of `prev` and sends the announcement -/
  | accept (id prev : Bytes) (height : UInt64)
  /-- an announcement reaches the main loop (applicator.go:402-403) -/
  | deliver (i : Nat)
  /-- any other step of the applicator and its goroutines -/
  | act (l : App.Label)
  deriving DecidableEq

/-- The id is accepted. -/
def Has (s : State) (id : Bytes) : Prop := ∃ h, (id, h) ∈ s.accepted

instance (s : State) (id : Bytes) : Decidable (Has s id) :=
  decidable_of_iff (id ∈ s.accepted.map Prod.fst) (by simp [Has])

/-- What an honest chain may answer (koinos_rpc.go:143-162). -/
def honest (s : State) (b : Blk) (e : Option Err) : Bool :=
  (decide (e ≠ none) || decide (Has s b.id)) &&
  (!errIs e .unknownPreviousBlock || !decide (Has s b.previous))

/-- One step; `none` if the label is not enabled. -/
def step (o : AppOpts) (s : State) : Label → Option State
  | .accept id prev height =>
    if Has s prev ∧ ¬ Has s id then
      some { s with accepted := (id, height) :: s.accepted, news := s.news ++ [(id, height)] }
    else none
  | .deliver i =>
    match s.news[i]? with
    | some (id, height) =>
      (App.step o s.app (.broadcast id height)).map fun a => { s with app := a, news := s.news.eraseIdx i }
    | none => none
  | .act (.broadcast _ _) => none
  | .act (.rpcReturn i e) =>
    match s.app.apps[i]? with
    | some a => if honest s a.blk e then (App.step o s.app (.rpcReturn i e)).map fun a => { s with app := a } else none
    | none => none
  | .act l => (App.step o s.app l).map fun a => { s with app := a }

/-- The node starts with a chain that has already accepted `known` (applicator.go:70-96). -/
def init (highest lib : UInt64) (now : Int) (known : List (Bytes × UInt64)) : State :=
  { app := App.init highest lib now, accepted := known, news := [] }

/-- Executions. -/
def run (o : AppOpts) (s : State) : List Label → Option State
  | [] => some s
  | l :: ls => match step o s l with
    | some s' => run o s' ls
    | none => none

end Link
end KP2P
