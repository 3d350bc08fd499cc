import Verif.Model.TxCache
/-!
# Model of the transaction part of internal/p2p/applicator.go

A labelled transition system: callers of `ApplyTransaction` (lines 118-131), the workers (lines 413-431 with
`handleApplyTransaction`, lines 381-389), the chain, and the block broadcasts that pass through the transaction cache
(line 360).

Simplifications: the number of workers is not bounded and the channel is an unbounded bag (more behaviours); the
applicator's context is not cancelled; the cache's critical section is one step at the clock reading of line 61 of
transaction_cache.go; there is one non-decreasing clock.
-/

namespace KP2P
namespace TxA

/-- Where a worker handling a request is: between the cache check (line 383) and the RPC, inside the RPC (line 384). -/
inductive Stage where
  | admitted
  | inRPC
  deriving DecidableEq, Repr

structure Job where
  req : Nat
  tx : Tx
  stage : Stage
  deriving DecidableEq, Repr

/-- One pass through the transaction cache: when, which transactions, for which request (`none`: a block broadcast),
and the count returned. -/
structure Pass where
  time : Int
  txs : List Tx
  req : Option Nat
  count : Nat
  deriving DecidableEq, Repr

/-- Observable events, newest first. -/
inductive Obs where
  /-- `ApplyTransaction` is called (line 118) -/
  | call (r : Nat) (tx : Tx)
  /-- the transaction is submitted to the chain (line 384) -/
  | submit (r : Nat) (tx : Tx) (t : Int)
  /-- the chain's verdict -/
  | verdict (r : Nat) (tx : Tx) (err : Option Err)
  /-- a value is sent on the request's channel (line 387) -/
  | answer (r : Nat) (err : Option Err)
  /-- the call returns (lines 125, 128) -/
  | returned (r : Nat) (err : Option Err)
  deriving DecidableEq, Repr

structure State where
  cache : TxCache
  now : Int
  /-- `applyTransactionChan` including blocked senders (line 121) -/
  queue : List (Nat × Tx)
  jobs : List Job
  /-- callers inside the `select` of lines 123-129 -/
  waiting : List Nat
  nextReq : Nat
  /-- history of the cache, oldest first -/
  passes : List Pass
  log : List Obs
  /-- the panic of transaction_cache.go:45 happened -/
  crashed : Bool

/-- applicator.go:70-96: a new transaction cache. -/
def init (dur : Int) (now : Int) : State :=
  { cache := TxCache.new dur, now := now, queue := [], jobs := [], waiting := [], nextReq := 0, passes := [], log := [],
    crashed := false }

inductive Label where
  | call (tx : Tx)
  /-- a worker receives a request and passes it through the cache (lines 424, 383) -/
  | work (i : Nat)
  /-- a worker calls the chain (line 384) -/
  | submit (i : Nat)
  | rpcReturn (i : Nat) (e : Option Err)
  /-- the main loop handles a block broadcast (line 360) -/
  | broadcast (txs : List Tx)
  | callerReturns (r : Nat)
  /-- the caller's context ends with the error `e` (line 127) -/
  | callerGivesUp (r : Nat) (e : Err)
  | tick (d : Nat)
  deriving DecidableEq

/-- The value waiting in the channel of a call, if any. -/
def answerOf (log : List Obs) (r : Nat) : Option (Option Err) :=
  log.findSome? fun
    | .answer r' e => if r' = r then some e else none
    | _ => none

/-- One step; `none` if the label is not enabled. -/
def step (s : State) : Label → Option State
  | .call tx => some { s with
      queue := s.queue ++ [(s.nextReq, tx)], waiting := s.nextReq :: s.waiting, nextReq := s.nextReq + 1,
      log := .call s.nextReq tx :: s.log }
  | .work i =>
    match s.queue[i]? with
    | none => none
    | some (r, tx) =>
      match s.cache.checkTransactions s.now [tx] with
      | none => some { s with crashed := true }
      | some (c, n) =>
        let s1 : State := { s with cache := c, queue := s.queue.eraseIdx i, passes := s.passes ++ [⟨s.now, [tx], some r, n⟩] }
        if n = 0 then some { s1 with jobs := s1.jobs ++ [⟨r, tx, .admitted⟩] }
        else some { s1 with log := .answer r none :: s1.log }
  | .submit i =>
    match s.jobs[i]? with
    | some ⟨r, tx, .admitted⟩ =>
      some { s with jobs := s.jobs.set i ⟨r, tx, .inRPC⟩, log := .submit r tx s.now :: s.log }
    | _ => none
  | .rpcReturn i e =>
    match s.jobs[i]? with
    | some ⟨r, tx, .inRPC⟩ =>
      some { s with jobs := s.jobs.eraseIdx i, log := .answer r e :: .verdict r tx e :: s.log }
    | _ => none
  | .broadcast txs =>
    match s.cache.checkTransactions s.now txs with
    | none => some { s with crashed := true }
    | some (c, n) => some { s with cache := c, passes := s.passes ++ [⟨s.now, txs, none, n⟩] }
  | .callerReturns r =>
    if r ∈ s.waiting then
      match answerOf s.log r with
      | some e => some { s with waiting := s.waiting.erase r, log := .returned r e :: s.log }
      | none => none
    else none
  | .callerGivesUp r e =>
    if r ∈ s.waiting then some { s with waiting := s.waiting.erase r, log := .returned r (some e) :: s.log }
    else none
  | .tick d => some { s with now := s.now + d }

/-- Executions. -/
def run (s : State) : List Label → Option State
  | [] => some s
  | l :: ls => match step s l with
    | some s' => run s' ls
    | none => none

def Reachable (dur : Int) (s : State) : Prop := ∃ now ls, run (init dur now) ls = some s

end TxA
end KP2P
