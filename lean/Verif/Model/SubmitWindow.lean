import Verif.Model.Applicator
/-!
# Model of internal/p2p/applicator.go:370-379, `handleApplyBlock`, with its two moments

`Model/Applicator.lean` makes one step of the comparison with the irreversible height (line 372) and of the call of
the chain (line 375). They are two: the worker runs beside the main loop, which may store another irreversible height
(line 335) in between. Here the call is a step of its own.
-/

namespace KP2P
namespace Window

/-- The applicator and the workers between lines 372 and 375. -/
structure State where
  app : AState
  /-- blocks whose height was compared (line 372) and which have not been sent to the chain yet (line 375) -/
  ready : List Blk
  /-- what was sent to the chain (line 375), newest first, with the irreversible height known at that moment -/
  sent : List (Blk × UInt64)

inductive Label where
  /-- a step of the applicator; `.work` is now only the comparison of line 372 -/
  | app (l : App.Label)
  /-- a worker calls the chain (line 375) -/
  | send (b : Blk)
  deriving DecidableEq

/-- applicator.go:370-375: the block that goes on to the call, if the step is a comparison that lets it pass. -/
def passed (s : AState) : App.Label → List Blk
  | .work i => match s.apps[i]? with
    | some a => if a.blk.height ≤ s.lib then [] else [a.blk]
    | none => []
  | _ => []

/-- applicator.go:375: the call does not return before it was made. -/
def early (s : State) : App.Label → Bool
  | .rpcReturn i _ => match s.app.apps[i]? with
    | some a => decide (a.blk ∈ s.ready)
    | none => false
  | _ => false

/-- One step; `none` if the label is not enabled. -/
def step (o : AppOpts) (s : State) : Label → Option State
  | .app l =>
    if early s l then none
    else (App.step o s.app l).map fun a => { s with app := a, ready := passed s.app l ++ s.ready }
  | .send b =>
    if b ∈ s.ready then some { s with ready := s.ready.erase b, sent := (b, s.app.lib) :: s.sent } else none

/-- Executions. -/
def run (o : AppOpts) (s : State) : List Label → Option State
  | [] => some s
  | l :: ls => match step o s l with
    | some s' => run o s' ls
    | none => none

/-- applicator.go:70-96, `NewApplicator`. -/
def init (highest lib : UInt64) (now : Int) : State := ⟨App.init highest lib now, [], []⟩

end Window
end KP2P
