import Verif.Model.Redial
/-!
# Vocabulary for C60 and C62: rounds of redialling
-/

namespace KP2P
namespace Redial

/-- The events of the round that the newest event of the log belongs to, newest first. -/
def thisRound : List Obs → List Obs
  | [] => []
  | .started _ :: _ => []
  | x :: rest => x :: thisRound rest

/-- The peers asked about, with the answers, in order. -/
def asked (log : List Obs) : List (Bytes × Bool) :=
  log.reverse.filterMap fun
    | .asked p c => some (p, c)
    | _ => none

/-- The peers dialled, in order. -/
def dialled (log : List Obs) : List Bytes :=
  log.reverse.filterMap fun
    | .dialled p => some p
    | _ => none

/-- When the last round ended. -/
def lastEnd : List Obs → Option Time
  | [] => none
  | .ended t :: _ => some t
  | _ :: rest => lastEnd rest

/-! ### Infinite executions -/

def Exec (peers : List Bytes) (σ : Nat → State) (ev : Nat → Label) : Prop := ∀ n, step peers (σ n) (ev n) = some (σ (n + 1))

/-- The steps of the loop itself. -/
def Work : Label → Prop
  | .cancel | .managerEnds | .tick _ => False
  | _ => True

/-- Queries are answered, dialling ends, timers fire. -/
def Fair (peers : List Bytes) (σ : Nat → State) (ev : Nat → Label) : Prop :=
  ∀ n, (∀ m, n ≤ m → ∃ x, Work x ∧ (step peers (σ m) x).isSome = true) → ∃ m, n ≤ m ∧ Work (ev m)

/-- Time goes on. -/
def TimePasses (σ : Nat → State) : Prop := ∀ T : Int, ∃ n, T ≤ (σ n).now

end Redial
end KP2P
