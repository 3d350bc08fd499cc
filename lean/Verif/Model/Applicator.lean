import Verif.Model.ForkWatchdog
/-!
# Model of internal/p2p/applicator.go: block application

A labelled transition system. The main loop (applicator.go:393-411) is a single goroutine, so each handler is one
atomic step on the main-loop state; what it shares with other goroutines is the irreversible height (atomic, lines
335 and 372) and the fork watchdog (mutex). Every other goroutine (callers of `ApplyBlock`, the application goroutine
of line 240, the worker pool of lines 413-431, the retry timers of line 226) contributes its own steps.

Simplifications: the context of the applicator is never cancelled (the model is of a running node); channels with
bounded buffers are unbounded bags from which any element may be received next (more behaviours than FIFO); the number
of workers is not bounded (more behaviours); `ApplyTransaction` is modelled separately (`Model/TxApply.lean`); there
is one non-decreasing clock; a worker's comparison with the irreversible height (line 372) and its call of the chain
(line 375) are one step (`Model/SubmitWindow.lean` takes them apart); blocks with a nil header panic before they reach this model (see C41).
-/

namespace KP2P

/-- options/applicator_options.go:16-24 and 27-35; `ApplicationJobs` is not used by the model. -/
structure AppOpts where
  maxPendingBlocks : UInt64 := 2500
  maxHeightDelta : UInt64 := 60
  delayThreshold : Time := 4 * second
  delayTimeout : Time := 60 * second
  forceChildRequestThreshold : Time := 60 * second
  forceApplicationRetryDelay : Time := 50000000
  deriving Repr

/-- applicator.go:16-19, `blockEntry`; the channels are numbers (one per `ApplyBlock` call). -/
structure BEntry where
  block : Blk
  chans : List Nat
  deriving DecidableEq, Repr

/-- Where the goroutine started by applicator.go:240 is: in the `select` of lines 254-264, waiting for a worker
(line 267), inside the chain RPC of a worker (line 375), or handing its result to the main loop (lines 257, 271). -/
inductive Stage where
  | delaying (timerAt timeoutAt : Int)
  | queued
  | inRPC
  | done (err : Option Err)
  deriving DecidableEq, Repr

/-- One running application of a block (applicator.go:240-280). -/
structure BApp where
  blk : Blk
  stage : Stage
  deriving DecidableEq, Repr

/-- Observable events, recorded in a log (newest first). The log is history only; no step reads it except the return
of an `ApplyBlock` caller, which reads its own channel. -/
inductive Obs where
  /-- `ApplyBlock` is called (line 99), call number `r` -/
  | call (r : Nat) (b : Blk)
  /-- the call returns at once with an error of the fork watchdog (line 102) -/
  | refused (r : Nat) (err : Option Err)
  /-- a value is sent on the channel of the call (lines 181, 312) -/
  | answer (r : Nat) (err : Option Err)
  /-- the call returns (lines 111, 114) -/
  | returned (r : Nat) (err : Option Err)
  /-- a newly added block is not scheduled (lines 166, 171) -/
  | deferred (b : Blk)
  /-- an application of the block begins (line 238) -/
  | start (b : Blk)
  /-- the block is submitted to the chain (line 375) -/
  | submit (b : Blk)
  /-- the chain's verdict (line 375) -/
  | verdict (b : Blk) (err : Option Err)
  /-- the waiting time-out of a future block fires (line 256) -/
  | delayTimeout (b : Blk)
  /-- the main loop handles the end of an application (line 283) -/
  | status (b : Blk) (err : Option Err)
  deriving DecidableEq, Repr

/-- applicator.go:44-68 plus everything in flight. -/
structure AState where
  highest : UInt64
  lib : UInt64
  watchdog : ForkWatchdog
  byId : GoMap Bytes BEntry
  byPrev : GoMap Bytes (GoSet Bytes)
  byHeight : GoMap UInt64 (GoSet Bytes)
  pending : GoSet Bytes
  /-- `newBlockChan` including blocked senders (line 107) -/
  newQ : List (Nat × Blk)
  /-- `tryBlockChan` including blocked senders (lines 211-219) -/
  tries : List (Blk × Bool)
  /-- the timers of line 228: due time and block (they are always forced) -/
  retries : List (Int × Blk)
  apps : List BApp
  /-- callers inside the `select` of lines 109-115 -/
  waiting : List Nat
  nextReq : Nat
  now : Int
  /-- the main loop is in a loop that never ends (line 350 with the limit 2^64-1) -/
  hung : Bool
  log : List Obs
  deriving DecidableEq

namespace App

/-- applicator.go:70-96, `NewApplicator`, given the head height and irreversible height reported by the chain. -/
def init (highest lib : UInt64) (now : Int) : AState :=
  { highest := highest, lib := lib, watchdog := ForkWatchdog.new, byId := ∅, byPrev := ∅, byHeight := ∅,
    pending := ∅, newQ := [], tries := [], retries := [], apps := [], waiting := [], nextReq := 0, now := now,
    hung := false, log := [] }

/-- `time.Duration` saturation of `time.Time.Sub` (Go standard library). -/
def satDur (d : Int) : Int := max (-9223372036854775808) (min 9223372036854775807 d)

/-- applicator.go:246, `time.Unix(int64(ts/1000), int64(ts%1000))`, in nanoseconds since the epoch. -/
def goBlockTime (ts : UInt64) : Int := (ts.toNat / 1000 : Nat) * 1000000000 + (ts.toNat % 1000 : Nat)

/-- applicator.go:326, `time.Since(time.UnixMilli(int64(ts))) < threshold`. -/
def forceFor (o : AppOpts) (now : Int) (b : Blk) : Bool :=
  decide (satDur (now - b.timestamp.toBitVec.toInt * 1000000) < o.forceChildRequestThreshold)

/-- Sending one value on each of the channels (applicator.go:179-185 and 310-316). A second value on the same channel
would block or panic; C08 shows that this never happens. -/
def answerAll (s : AState) (e : Option Err) (chans : List Nat) : AState :=
  { s with log := (chans.map fun r => Obs.answer r e).reverse ++ s.log }

/-- applicator.go:210-220, `tryBlockApplication`. -/
def trySend (s : AState) (b : Blk) (force : Bool) : AState := { s with tries := s.tries ++ [(b, force)] }

/-- applicator.go:152-155 and 157-160: add an id to an index. -/
def addTo {K : Type} [DecidableEq K] (m : GoMap K (GoSet Bytes)) (k : K) (id : Bytes) : GoMap K (GoSet Bytes) :=
  let m1 := if m.has k then m else m.set k ∅
  m1.set k (((m1.get k).getD ∅).set id ())

/-- applicator.go:192-198 and 200-206: remove an id from an index. -/
def dropFrom {K : Type} [DecidableEq K] (m : GoMap K (GoSet Bytes)) (k : K) (id : Bytes) :
    GoMap K (GoSet Bytes) :=
  match m.get k with
  | none => m
  | some ids => if (ids.del id).len = 0 then (m.set k (ids.del id)).del k else m.set k (ids.del id)

/-- applicator.go:147-161: the table part of `addBlockEntry`. -/
def addTables (s : AState) (r : Nat) (b : Blk) : AState :=
  match s.byId.get b.id with
  | some old => { s with byId := s.byId.set b.id { old with chans := old.chans ++ [r] } }
  | none =>
    { s with
      byId := s.byId.set b.id { block := b, chans := [r] }
      byPrev := addTo s.byPrev b.previous b.id
      byHeight := addTo s.byHeight b.height b.id }

/-- applicator.go:142-175, `addBlockEntry` (an entry from `newBlockChan` carries exactly one channel, line 107).
The additions are 64-bit and wrap. -/
def addBlockEntry (s : AState) (r : Nat) (b : Blk) : AState :=
  let s1 := addTables s r b
  if b.height > s1.highest + 1 then { s1 with log := .deferred b :: s1.log }
  else if s1.pending.has b.previous then { s1 with log := .deferred b :: s1.log }
  else trySend s1 b false

/-- applicator.go:177-208, `removeBlockEntry`. -/
def removeBlockEntry (s : AState) (id : Bytes) (e : Option Err) : AState :=
  match s.byId.get id with
  | none => s
  | some entry =>
    let s1 := answerAll s e entry.chans
    { s1 with
      byId := s1.byId.del id
      byPrev := dropFrom s1.byPrev entry.block.previous id
      byHeight := dropFrom s1.byHeight entry.block.height id }

/-- applicator.go:322-331, `checkBlockChildren`. -/
def checkChildren (o : AppOpts) (s : AState) (id : Bytes) : AState :=
  match s.byPrev.get id with
  | none => s
  | some children => children.keys.foldl (fun s k =>
      match s.byId.get k with
      | some entry => trySend s entry.block (forceFor o s.now entry.block)
      | none => s) s

/-- applicator.go:245-281: the goroutine of an application, up to its first blocking point. -/
def beginApp (o : AppOpts) (now : Int) (b : Blk) : BApp :=
  let threshold := now + o.delayThreshold
  let blockTime := goBlockTime b.timestamp
  if blockTime > threshold then
    { blk := b, stage := .delaying (now + satDur (blockTime - threshold)) (now + o.delayTimeout) }
  else { blk := b, stage := .queued }

/-- applicator.go:222-281, `handleTryBlockApplication`. -/
def handleTry (o : AppOpts) (s : AState) (b : Blk) (force : Bool) : AState :=
  if s.pending.has b.id then
    if force then { s with retries := s.retries ++ [(s.now + o.forceApplicationRetryDelay, b)] } else s
  else
    { s with
      pending := s.pending.set b.id ()
      apps := s.apps ++ [beginApp o s.now b]
      log := .start b :: s.log }

/-- applicator.go:283-296, `handleBlockStatus`. -/
def handleStatus (o : AppOpts) (s : AState) (b : Blk) (e : Option Err) : AState :=
  let s := { s with pending := s.pending.del b.id, log := .status b e :: s.log }
  if errIs e .blockState then trySend s b false
  else if e = none ∨ errIs e .unknownPreviousBlock = false then
    let s := if e = none then checkChildren o s b.id else s
    removeBlockEntry s b.id e
  else s

/-- applicator.go:301-307: the admission check. `int(MaxPendingBlocks)` is a signed conversion. -/
def admission (o : AppOpts) (s : AState) (b : Blk) : Option Err :=
  if b.height > s.highest + o.maxHeightDelta then some (.sentinel .maxHeight)
  else if (s.byId.len : Int) ≥ o.maxPendingBlocks.toBitVec.toInt then some (.sentinel .maxPendingBlocks)
  else if b.height ≤ s.lib then some (.sentinel .blockIrreversibility)
  else none

/-- applicator.go:298-320, `handleNewBlock`. -/
def handleNewBlock (o : AppOpts) (s : AState) (r : Nat) (b : Blk) : AState :=
  match admission o s b with
  | some e => answerAll s (some e) [r]
  | none => addBlockEntry s r b

/-- The heights visited by the loop of applicator.go:350 (`for h := oldLib + 1; h <= lib; h++`), when it ends; for
`lib = 2^64-1` its first pass (see C59). -/
def heights (oldLib lib : UInt64) : List UInt64 :=
  (List.range (lib.toNat + 1 - (oldLib + 1).toNat)).map fun i => UInt64.ofNat ((oldLib + 1).toNat + i)

/-- applicator.go:351-355: one iteration of the eviction loop. -/
def evictHeight (s : AState) (h : UInt64) : AState :=
  match s.byHeight.get h with
  | none => s
  | some ids => ids.keys.foldl (fun s id => removeBlockEntry s id (some (.sentinel .blockIrreversibility))) s

/-- applicator.go:333-357, `handleForkHeads`; `heads` are the ids of the fork heads, `lib` the irreversible height. -/
def handleForkHeads (o : AppOpts) (s : AState) (heads : List Bytes) (lib : UInt64) : AState :=
  let oldLib := s.lib
  let s := { s with lib := lib, watchdog := s.watchdog.purge lib }
  let s := heads.foldl (checkChildren o) s
  let s := (heights oldLib lib).foldl evictHeight s
  { s with hung := lib.toNat = 18446744073709551615 }

/-- applicator.go:359-368, `handleBlockBroadcast` without the transaction cache (see `Model/TxApply.lean`). -/
def handleBroadcast (o : AppOpts) (s : AState) (id : Bytes) (height : UInt64) : AState :=
  let s := if height > s.highest then { s with highest := height } else s
  checkChildren o s id

inductive Label where
  /-- a goroutine calls `ApplyBlock` and gets to line 107 (or returns at line 102) -/
  | applyBlock (b : Blk)
  /-- a caller finds its answer (line 110) -/
  | callerReturns (r : Nat)
  /-- a caller's context ends (line 113) -/
  | callerTimesOut (r : Nat)
  /-- the main loop receives from `newBlockChan` -/
  | newBlock (i : Nat)
  | forkHeads (heads : List Bytes) (lib : UInt64)
  | broadcast (id : Bytes) (height : UInt64)
  /-- the main loop receives from `tryBlockChan` -/
  | tryBlock (i : Nat)
  /-- the main loop receives from `blockStatusChan` -/
  | status (i : Nat)
  /-- the timer of line 255 fires -/
  | delayDone (i : Nat)
  /-- the time-out of line 256 fires -/
  | delayTimeout (i : Nat)
  /-- a worker takes the request (lines 417, 421) and checks the height (line 372) -/
  | work (i : Nat)
  /-- the chain answers -/
  | rpcReturn (i : Nat) (e : Option Err)
  /-- the timer of line 228 fires -/
  | retryDue (i : Nat)
  /-- time passes -/
  | tick (d : Nat)
  deriving DecidableEq

/-- applicator.go:98-116, first half of `ApplyBlock`. -/
def applyBlock (s : AState) (b : Blk) : AState :=
  let w := s.watchdog.addBlk b
  let s1 := { s with watchdog := w.1, nextReq := s.nextReq + 1, log := .call s.nextReq b :: s.log }
  match w.2 with
  | some e => { s1 with log := .refused s.nextReq (some e) :: s1.log }
  | none => { s1 with newQ := s1.newQ ++ [(s.nextReq, b)], waiting := s.nextReq :: s1.waiting }

/-- The value waiting in the channel of a call, if any. -/
def answerOf (log : List Obs) (r : Nat) : Option (Option Err) :=
  log.findSome? fun
    | .answer r' e => if r' = r then some e else none
    | _ => none

/-- One step; `none` if the label is not enabled. -/
def step (o : AppOpts) (s : AState) : Label → Option AState
  | .applyBlock b => some (applyBlock s b)
  | .callerReturns r =>
    if r ∈ s.waiting then
      match answerOf s.log r with
      | some e => some { s with waiting := s.waiting.erase r, log := .returned r e :: s.log }
      | none => none
    else none
  | .callerTimesOut r =>
    if r ∈ s.waiting then
      some { s with waiting := s.waiting.erase r,
                    log := .returned r (some (.sentinel .blockApplicationTimeout)) :: s.log }
    else none
  | .newBlock i =>
    match s.hung, s.newQ[i]? with
    | false, some (r, b) => some (handleNewBlock o { s with newQ := s.newQ.eraseIdx i } r b)
    | _, _ => none
  | .forkHeads heads lib => if s.hung then none else some (handleForkHeads o s heads lib)
  | .broadcast id height => if s.hung then none else some (handleBroadcast o s id height)
  | .tryBlock i =>
    match s.hung, s.tries[i]? with
    | false, some (b, f) => some (handleTry o { s with tries := s.tries.eraseIdx i } b f)
    | _, _ => none
  | .status i =>
    match s.hung, s.apps[i]? with
    | false, some ⟨b, .done e⟩ => some (handleStatus o { s with apps := s.apps.eraseIdx i } b e)
    | _, _ => none
  | .delayDone i =>
    match s.apps[i]? with
    | some ⟨b, .delaying t _⟩ => if t ≤ s.now then some { s with apps := s.apps.set i ⟨b, .queued⟩ } else none
    | _ => none
  | .delayTimeout i =>
    match s.apps[i]? with
    | some ⟨b, .delaying _ t⟩ =>
      -- line 259: `ctx.Err()` of the applicator's context, which is nil
      if t ≤ s.now then some { s with apps := s.apps.set i ⟨b, .done none⟩, log := .delayTimeout b :: s.log }
      else none
    | _ => none
  | .work i =>
    match s.apps[i]? with
    | some ⟨b, .queued⟩ =>
      if b.height ≤ s.lib then
        some { s with apps := s.apps.set i ⟨b, .done (some (.sentinel .blockIrreversibility))⟩ }
      else some { s with apps := s.apps.set i ⟨b, .inRPC⟩, log := .submit b :: s.log }
    | _ => none
  | .rpcReturn i e =>
    match s.apps[i]? with
    | some ⟨b, .inRPC⟩ => some { s with apps := s.apps.set i ⟨b, .done e⟩, log := .verdict b e :: s.log }
    | _ => none
  | .retryDue i =>
    match s.retries[i]? with
    | some (t, b) => if t ≤ s.now then some (trySend { s with retries := s.retries.eraseIdx i } b true) else none
    | none => none
  | .tick d => some { s with now := s.now + d }

/-- Executions. -/
def run (o : AppOpts) (s : AState) : List Label → Option AState
  | [] => some s
  | l :: ls => match step o s l with
    | some s' => run o s' ls
    | none => none

/-- `s` can be reached from the initial state. -/
def Reachable (o : AppOpts) (s : AState) : Prop :=
  ∃ highest lib now ls, run o (init highest lib now) ls = some s

end App
end KP2P
