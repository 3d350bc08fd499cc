import Verif.Model.NodeClose
/-!
# Model of the program from start to end

cmd/koinos-p2p/main.go:195-242 with internal/node/node.go:74-221 (`NewKoinosP2PNode`), 374-382 (`Close`), 405-435 (`Start`)
and internal/p2p/connection_manager.go:349-361 (`Start`).

The main goroutine goes through phases; the host, its connections, the connection manager and `Close` are those of
`Model/NodeClose`. Simplifications:
* Options are read before (main.go:75-193, `Model/Config`). `client.Start` (line 198) and `requestHandler.Start` (line 229) are
  outside the repository and return once.
* A probe that gets an error and one that gets "not connected" are the same (lines 206 and 217 ignore the error).
* A connection is made only when the error handler has answered the gate's question about it (C87, C88), so only after
  node.go:418; that answer and the connection are one step. The notifiee is registered before (line 406).
* Everybody who asks the connection manager waits with the node's context or one that never ends (error_handler.go:121, 212,
  node.go:159, gossip_toggle.go:72, connection_manager.go:308), and main.go ends the node's context (the `defer` of line 196)
  only when `main` returns: so nobody gives up waiting, and the context does not end before the program.
* A peer that is gone when its turn in connection_manager.go:351-356 comes is passed over; the peers that are there when
  their turn comes are those of one moment.
* A SIGINT or SIGTERM that is not asked for ends the process (Go's runtime).
-/

namespace KP2P
namespace Life

/-- What the main goroutine does next. -/
inductive Phase where
  /-- main.go:203-211 -/
  | probeStore
  /-- main.go:214-222 -/
  | probeChain
  /-- node.go:75-178: key, host and pubsub are made; the host listens -/
  | build
  /-- node.go:182 (`NewApplicator` asks for the head) up to the end of `NewKoinosP2PNode` -/
  | head
  /-- main.go:229 -/
  | handler
  /-- node.go:406 -/
  | notify
  /-- node.go:408-412 -/
  | forks
  /-- node.go:414-418 -/
  | errors
  /-- node.go:419 -/
  | toggle
  /-- node.go:420 -/
  | manager
  /-- node.go:421-434 -/
  | applicator
  /-- main.go:236-237 -/
  | install
  /-- main.go:238 -/
  | waiting
  /-- main.go:241 -/
  | closing
  /-- `main` has returned -/
  | finished
  /-- main.go:226 -/
  | panicked
  /-- ended by a signal that was not asked for -/
  | killed
  deriving DecidableEq, Repr

/-- The process runs. -/
def Phase.alive : Phase → Bool
  | .finished | .panicked | .killed => false
  | _ => true

/-- The signals have not been asked for yet. -/
def Phase.unarmed : Phase → Bool
  | .waiting | .closing => false
  | p => p.alive

/-- The goroutine of connection_manager.go:350-360. -/
inductive Starter where
  | none
  /-- about to ask the host for its peers (line 351) -/
  | spawned
  | listed
  deriving DecidableEq, Repr

structure State where
  phase : Phase
  /-- contexts made for probes (main.go:204, 215); each is kept until `main` returns, for its cancelling is deferred -/
  ctxs : Nat
  /-- the error handler's loop runs, the gate answers -/
  gate : Bool
  starter : Starter
  net : Closing.State
  /-- a signal is in the channel of main.go:236, which holds one -/
  signal : Bool
  deriving DecidableEq, Repr

def init : State :=
  { phase := .probeStore, ctxs := 0, gate := false, starter := .none, net := Closing.init 0, signal := false }

inductive Label where
  /-- the answer to a probe -/
  | probe (ok : Bool)
  | build (ok : Bool)
  /-- the answer to the question for the head -/
  | head (ok : Bool)
  | handler
  | notify
  /-- the answer to the question for the fork heads -/
  | forks (ok : Bool)
  | errors
  | toggle
  | manager
  | applicator
  | install
  /-- connection_manager.go:351 -/
  | list
  /-- a step of the host, the manager or `Close` -/
  | net (l : Closing.Label)
  /-- SIGINT or SIGTERM -/
  | signal
  /-- main.go:238 -/
  | take
  /-- `Close` has returned, `main` returns -/
  | exit
  deriving DecidableEq, Repr

/-- The peers of the host. -/
def present (s : Closing.State) : Nat := s.links.countP fun l => l == .up || l == .opening false

/-- Which steps of `Model/NodeClose` can be taken. -/
def allowed (s : State) : Closing.Label → Bool
  | .connect => s.gate
  | .spawn => s.starter == .listed
  | .close | .hostClose | .done => s.phase == .closing
  | .abandon | .cancel => false
  | _ => true

/-- One step; `none` if the label is not enabled. -/
def step (s : State) : Label → Option State
  | .probe ok => match s.phase with
    | .probeStore => some { s with ctxs := s.ctxs + 1, phase := if ok then .probeChain else .probeStore }
    | .probeChain => some { s with ctxs := s.ctxs + 1, phase := if ok then .build else .probeChain }
    | _ => none
  | .build ok => if s.phase = .build then some { s with phase := if ok then .head else .panicked } else none
  | .head ok => if s.phase = .head then some { s with phase := if ok then .handler else .panicked } else none
  | .handler => if s.phase = .handler then some { s with phase := .notify } else none
  | .notify => if s.phase = .notify then some { s with phase := .forks } else none
  | .forks ok => if s.phase = .forks then some { s with phase := if ok then .errors else .forks } else none
  | .errors => if s.phase = .errors then some { s with phase := .toggle, gate := true } else none
  | .toggle => if s.phase = .toggle then some { s with phase := .manager } else none
  | .manager => if s.phase = .manager then some { s with phase := .applicator, starter := .spawned } else none
  | .applicator => if s.phase = .applicator then some { s with phase := .install } else none
  | .install => if s.phase = .install then some { s with phase := .waiting } else none
  | .list =>
    if s.phase.alive ∧ s.starter = .spawned then
      some { s with starter := .listed, net := { s.net with mgr := .starting (present s.net) } }
    else none
  | .net l => if s.phase.alive ∧ allowed s l then (Closing.step s.net l).map fun n => { s with net := n } else none
  | .signal =>
    if s.phase.unarmed then some { s with phase := .killed }
    else if s.phase.alive then some { s with signal := true }
    else none
  | .take => if s.phase = .waiting ∧ s.signal then some { s with phase := .closing, signal := false } else none
  | .exit => if s.phase = .closing ∧ s.net.close = .returned then some { s with phase := .finished } else none

def run (s : State) : List Label → Option State
  | [] => some s
  | l :: ls => match step s l with
    | some s' => run s' ls
    | none => none

end Life
end KP2P
