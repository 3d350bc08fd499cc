import Verif.Base.Basic
/-!
# Specification of the transaction de-duplication window

A log of observations.  A transaction observed at time `t` is *seen* iff an earlier observation in the
log recorded it as *new* no more than `dur` before `t`.
-/

namespace KP2P.Spec

/-- One transaction presented at one instant; `fresh` tells whether it was new. -/
structure Obs where
  time : Time
  id : Bytes
  fresh : Bool
  deriving DecidableEq, Repr

/-- "recorded as new no more than `dur` ago". -/
def SeenWithin (dur : Int) (log : List Obs) (t : Time) (id : Bytes) : Prop :=
  ∃ o ∈ log, o.id = id ∧ o.fresh = true ∧ t - o.time ≤ dur

instance (dur : Int) (log : List Obs) (t : Time) (id : Bytes) : Decidable (SeenWithin dur log t id) := by
  unfold SeenWithin; infer_instance

/-- Present the transactions `ids` one after another at time `t`; returns the extended log and how many
were seen. -/
def present (dur : Int) (t : Time) : List Bytes → List Obs → List Obs × Nat
  | [], log => (log, 0)
  | id :: rest, log =>
    if SeenWithin dur log t id then
      let r := present dur t rest (log ++ [⟨t, id, false⟩])
      (r.1, r.2 + 1)
    else present dur t rest (log ++ [⟨t, id, true⟩])

/-- A history of calls; returns the log and the count of every call. -/
def history (dur : Int) : List (Time × List Bytes) → List Obs → List Obs × List Nat
  | [], log => (log, [])
  | (t, ids) :: rest, log =>
    let r := present dur t ids log
    let r' := history dur rest r.1
    (r'.1, r.2 :: r'.2)

/-- A history of calls with transactions, seen as a history of ids (a nil id reads as the empty string). -/
def idsOf (calls : List (Time × List Tx)) : List (Time × List Bytes) :=
  calls.map (fun c => (c.1, c.2.map (fun t => str t.id)))

/-- The clock never goes backwards between calls. -/
def Monotone (calls : List (Time × List Tx)) : Prop := (calls.map Prod.fst).Pairwise (· ≤ ·)

instance (calls : List (Time × List Tx)) : Decidable (Monotone calls) := by
  unfold Monotone; infer_instance

end KP2P.Spec
