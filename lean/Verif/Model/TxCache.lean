import Verif.Base.Basic
/-!
# Model of internal/p2p/transaction_cache.go
-/

namespace KP2P

/-- transaction_cache.go:15-18, `TransactionCacheItem`. -/
structure TxItem where
  id : Bytes
  timeAdded : Time
  deriving DecidableEq, Repr

/-- transaction_cache.go:21-26, `TransactionCache`. The mutex is modelled by the atomicity of
`checkTransactions`. -/
structure TxCache where
  txMap : GoSet Bytes
  items : List TxItem
  dur : Int

namespace TxCache

/-- transaction_cache.go:29-37, `NewTransactionCache`. -/
def new (dur : Int) : TxCache := { txMap := ∅, items := [], dur := dur }

/-- transaction_cache.go:39-53, `addTransactionItem`; `none` is the explicit panic of line 45. -/
def addItem (c : TxCache) (it : TxItem) : Option TxCache :=
  let older : Bool := match c.items.getLast? with
    | none => false
    | some last => decide (it.timeAdded < last.timeAdded)
  if older then none
  else some { c with txMap := c.txMap.set it.id (), items := c.items ++ [it] }

/-- transaction_cache.go:91-97, the loop of `pruneTransactions`: deletes every expired id from the map
and counts the expired items. -/
def pruneLoop (now dur : Int) : List TxItem → GoSet Bytes → Nat → GoSet Bytes × Nat
  | [], m, n => (m, n)
  | it :: rest, m, n =>
    if now - it.timeAdded > dur then pruneLoop now dur rest (m.del it.id) (n + 1)
    else pruneLoop now dur rest m n

/-- transaction_cache.go:90-105, `pruneTransactions`: drops as many items from the *front* as were expired. -/
def prune (c : TxCache) (now : Time) : TxCache :=
  let r := pruneLoop now c.dur c.items c.txMap 0
  { c with txMap := r.1, items := if r.2 > 0 then c.items.drop r.2 else c.items }

/-- transaction_cache.go:66-80, the loop of `CheckTransactions`. -/
def checkLoop (now : Time) : List Tx → TxCache → Nat → Option (TxCache × Nat)
  | [], c, count => some (c, count)
  | tx :: rest, c, count =>
    let id := str tx.id
    if c.txMap.has id then checkLoop now rest c (count + 1)
    else match c.addItem { id := id, timeAdded := now } with
      | none => none
      | some c' => checkLoop now rest c' count

/-- transaction_cache.go:56-83, `CheckTransactions`. `now` is the value of `time.Now()` read inside the
critical section (line 61). `none` is a panic. -/
def checkTransactions (c : TxCache) (now : Time) (txs : List Tx) : Option (TxCache × Nat) :=
  checkLoop now txs (c.prune now) 0

/-- transaction_cache.go:86-88, `CheckBlock`. -/
def checkBlock (c : TxCache) (now : Time) (b : RawBlock) : Option (TxCache × Nat) :=
  c.checkTransactions now b.transactions

/-- A sequence of calls, each at its own clock reading, returning the counts. -/
def run (c : TxCache) : List (Time × List Tx) → Option (TxCache × List Nat)
  | [] => some (c, [])
  | (now, txs) :: rest => do
    let (c, n) ← c.checkTransactions now txs
    let (c, ns) ← run c rest
    pure (c, n :: ns)

end TxCache
end KP2P
