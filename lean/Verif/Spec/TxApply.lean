import Verif.Model.TxApply
/-!
# Vocabulary for the transaction path

Lists of events read off the log and the cache history.
-/

namespace KP2P.Spec.TxA
open KP2P.TxA

/-- The id of a transaction as the cache sees it. -/
abbrev tid (tx : Tx) : Bytes := str tx.id

/-- The calls that were answered. -/
def answered (log : List Obs) : List Nat :=
  log.filterMap fun | .answer r _ => some r | _ => none

/-- The calls that have returned. -/
def returned (log : List Obs) : List Nat :=
  log.filterMap fun | .returned r _ => some r | _ => none

/-- The calls whose transaction was submitted to the chain. -/
def submitted (log : List Obs) : List Nat :=
  log.filterMap fun | .submit r _ _ => some r | _ => none

/-- The calls that submitted a transaction with the given id to the chain. -/
def submittedId (id : Bytes) (log : List Obs) : List Nat :=
  log.filterMap fun
    | .submit r tx _ => if tid tx = id then some r else none
    | _ => none

/-- The pass let the transaction of a call through to the chain. -/
def Admits (p : Pass) (id : Bytes) : Prop :=
  p.count = 0 ∧ p.req.isSome ∧ ∃ tx, p.txs = [tx] ∧ tid tx = id

/-- The pass showed the id to the cache. -/
def Shows (p : Pass) (id : Bytes) : Prop := ∃ tx ∈ p.txs, tid tx = id

end KP2P.Spec.TxA
