import Verif.Base.Basic
/-!
# Model of the worker pool of internal/p2p/applicator.go (lines 413-432)

`Verif/Model/Applicator.lean` and `Verif/Model/TxApply.lean` let any number of workers run. Here the number of workers is
`ApplicationJobs`, and the two nested `select` statements of the worker loop are modelled as they are.

Simplifications: requests are numbers; `blockQ` and `txQ` are the FIFO channels `applyBlockChan` and
`applyTransactionChan` with the senders blocked on them behind (lines 121, 267); handling a request is one call that
lasts until a reply (`handleApplyBlock`, lines 370-379, `handleApplyTransaction`, lines 381-389: a request that is
answered without asking the chain is one whose reply comes at once); the applicator's context is not cancelled.
-/

namespace KP2P
namespace Pool

/-- Where a worker is: at the outer `select` (line 416), in the inner `select` (line 420), handling a block (lines 418,
422) or a transaction (line 424). -/
inductive W where
  | looking
  | idle
  | block (n : Nat)
  | tx (n : Nat)
  deriving DecidableEq, Repr

/-- The worker is inside a call. -/
def W.busy : W → Bool
  | .block _ => true
  | .tx _ => true
  | _ => false

inductive Ev where
  | block (n : Nat)
  | tx (n : Nat)
  | reply
  deriving DecidableEq, Repr

structure State where
  workers : List W
  blockQ : List Nat
  txQ : List Nat
  /-- newest first: requests taken up and replies -/
  log : List Ev
  deriving DecidableEq, Repr

/-- applicator.go:413-415 with `ApplicationJobs = jobs`. -/
def init (jobs : Nat) : State := { workers := List.replicate jobs .looking, blockQ := [], txQ := [], log := [] }

inductive Label where
  /-- an application goroutine sends a block (line 267) -/
  | sendBlock (n : Nat)
  /-- a caller of `ApplyTransaction` sends a transaction (line 121) -/
  | sendTx (n : Nat)
  /-- worker `i` executes the outer `select` (lines 416-419) -/
  | look (i : Nat)
  /-- worker `i` receives a block in the inner `select` (line 421) -/
  | grabBlock (i : Nat)
  /-- worker `i` receives a transaction in the inner `select` (line 423) -/
  | grabTx (i : Nat)
  /-- the call of worker `i` ends -/
  | reply (i : Nat)
  deriving DecidableEq, Repr

def step (s : State) : Label → Option State
  | .sendBlock n => some { s with blockQ := s.blockQ ++ [n] }
  | .sendTx n => some { s with txQ := s.txQ ++ [n] }
  | .look i =>
    match s.workers[i]? with
    | some .looking =>
      match s.blockQ with
      | n :: rest => some { s with workers := s.workers.set i (.block n), blockQ := rest, log := .block n :: s.log }
      | [] => some { s with workers := s.workers.set i .idle }
    | _ => none
  | .grabBlock i =>
    match s.workers[i]?, s.blockQ with
    | some .idle, n :: rest => some { s with workers := s.workers.set i (.block n), blockQ := rest, log := .block n :: s.log }
    | _, _ => none
  | .grabTx i =>
    match s.workers[i]?, s.txQ with
    | some .idle, n :: rest => some { s with workers := s.workers.set i (.tx n), txQ := rest, log := .tx n :: s.log }
    | _, _ => none
  | .reply i =>
    match s.workers[i]? with
    | some (.block _) => some { s with workers := s.workers.set i .looking, log := .reply :: s.log }
    | some (.tx _) => some { s with workers := s.workers.set i .looking, log := .reply :: s.log }
    | _ => none

def run (s : State) : List Label → Option State
  | [] => some s
  | l :: ls => match step s l with
    | some s' => run s' ls
    | none => none

def Reachable (jobs : Nat) (s : State) : Prop := ∃ ls, run (init jobs) ls = some s

end Pool
end KP2P
