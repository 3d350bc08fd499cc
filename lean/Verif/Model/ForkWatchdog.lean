import Verif.Base.Basic
import Mathlib.Data.List.Sort
import Verif.Spec.ForkWatchdog
/-!
# Model of internal/p2p/fork_watchdog.go
-/

namespace KP2P
open Spec (WOp)

/-- fork_watchdog.go:11-14, `pairKey`. -/
structure PairKey where
  signer : Bytes
  parent : Bytes
  deriving DecidableEq, Repr

/-- fork_watchdog.go:16-19, `ForkWatchdog`. The mutex is modelled by the atomicity of `add`/`purge`. -/
structure ForkWatchdog where
  forkTracker : GoMap UInt64 (GoMap PairKey (GoSet Bytes))
  deriving DecidableEq

namespace ForkWatchdog

/-- fork_watchdog.go:21-25, `NewForkWatchdog`. -/
def new : ForkWatchdog := ⟨∅⟩

/-- fork_watchdog.go:28-52, `Add`, for a block whose header is present. Returns the new state and the
returned error. -/
def addBlk (f : ForkWatchdog) (b : Blk) : ForkWatchdog × Option Err :=
  let pair : PairKey := { signer := b.signer, parent := b.previous }
  -- lines 37-39: create the height record if missing
  let t1 := if f.forkTracker.has b.height then f.forkTracker else f.forkTracker.set b.height ∅
  let byPair := (t1.get b.height).getD ∅   -- present by construction
  -- lines 41-43: create the pair record if missing
  let byPair1 := if byPair.has pair then byPair else byPair.set pair ∅
  let ids := (byPair1.get pair).getD ∅     -- present by construction
  -- line 45: forkTracker[height][pair][id] = void{}
  let ids1 := ids.set b.id ()
  let t2 := t1.set b.height (byPair1.set pair ids1)
  -- lines 47-51
  (⟨t2⟩, if ids1.len > 3 then some (.sentinel .forkBomb) else none)

/-- fork_watchdog.go:28-52, `Add`, for a block from the network; `none` is the nil-pointer panic of line 33
(`block.Header.Signer` with a nil header). -/
def add (f : ForkWatchdog) (b : RawBlock) : Option (ForkWatchdog × Option Err) :=
  b.toBlk.map f.addBlk

/-- fork_watchdog.go:69-75, the deletion loop with its early `break`. -/
def purgeLoop (lib : UInt64) : List UInt64 → GoMap UInt64 (GoMap PairKey (GoSet Bytes)) →
    GoMap UInt64 (GoMap PairKey (GoSet Bytes))
  | [], m => m
  | h :: hs, m => if h ≤ lib then purgeLoop lib hs (m.del h) else m

/-- fork_watchdog.go:55-76, `Purge`: collect the heights, sort them, delete until the first one above `lib`. `sort.Slice` is modelled by insertion sort: the heights are distinct
map keys, so every correct sorting algorithm yields the same list. -/
def purge (f : ForkWatchdog) (lib : UInt64) : ForkWatchdog :=
  let heights := f.forkTracker.keys.insertionSort (· ≤ ·)
  ⟨purgeLoop lib heights f.forkTracker⟩

/-- Everything currently remembered: all (height, (signer, parent), id) triples. -/
def remembered (f : ForkWatchdog) : List (UInt64 × PairKey × Bytes) :=
  f.forkTracker.entries.flatMap fun hp =>
    hp.2.entries.flatMap fun pi => pi.2.keys.map fun id => (hp.1, pi.1, id)

/-- One operation of a history (calls are atomic: fork_watchdog.go:29-30 and 56-57 hold the mutex). -/
def op (f : ForkWatchdog) : WOp → ForkWatchdog × Option (Option Err)
  | .add b => ((f.addBlk b).1, some (f.addBlk b).2)
  | .purge lib => (f.purge lib, none)

/-- Run a history; returns the state and the result of every operation (`none` for a purge). -/
def run (f : ForkWatchdog) : List WOp → ForkWatchdog × List (Option (Option Err))
  | [] => (f, [])
  | o :: rest => ((run (f.op o).1 rest).1, (f.op o).2 :: (run (f.op o).1 rest).2)

end ForkWatchdog
end KP2P
