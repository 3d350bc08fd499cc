import Verif.Model.Enforce
/-!
# What enforcement is to achieve: predicates on observations, infinite executions, fairness
-/

namespace KP2P
namespace Enforce

/-- The connection was established at some time. -/
def Admitted (log : List Obs) (c : Conn) : Prop := ∃ t, Obs.admitted c t ∈ log

/-- The connection was ended, by the node or otherwise. -/
def Ended (log : List Obs) (c : Conn) : Prop := Obs.closed c ∈ log ∨ Obs.gone c ∈ log

/-- A misbehaviour of peer `p` was charged and brought the score of the address to the limit `n` or beyond. -/
def Convicted (n : UInt64) (log : List Obs) (p : Bytes) : Prop :=
  ∃ c e a sc t, Obs.charged c e a sc t ∈ log ∧ c.peer = p ∧ n ≤ sc

/-- The observation of how a report was dealt with. -/
def Dealt (c : Conn) (e : Err) (x : Obs) : Prop := x = .ignored c e ∨ ∃ a sc t, x = .charged c e a sc t

/-- An infinite execution. -/
def Exec (d : Spec.Decay) (o : ErrOpts) (σ : Nat → State) (ev : Nat → Label) : Prop :=
  ∀ n, step d o (σ n) (ev n) = some (σ (n + 1))

/-- The step takes up a report `(c, e)`. -/
def TakesUp (c : Conn) (e : Err) (s : State) : Label → Prop
  | .handle i => s.errs[i]? = some (c, e)
  | _ => False

/-- The step carries out a request to disconnect `p`. -/
def CarriesOut (p : Bytes) (s : State) : Label → Prop
  | .close i => s.closing[i]? = some p
  | _ => False

/-- The error handler does not leave a report waiting for ever. -/
def FairReports (σ : Nat → State) (ev : Nat → Label) : Prop :=
  ∀ c e n, (∀ m, n ≤ m → (c, e) ∈ (σ m).errs) → ∃ m, n ≤ m ∧ TakesUp c e (σ m) (ev m)

/-- The node does not leave a request to disconnect waiting for ever. -/
def FairCloses (σ : Nat → State) (ev : Nat → Label) : Prop :=
  ∀ p n, (∀ m, n ≤ m → p ∈ (σ m).closing) → ∃ m, n ≤ m ∧ CarriesOut p (σ m) (ev m)

/-- The numbers of the connections decided upon. -/
def decided (log : List Obs) : List Nat :=
  log.filterMap fun
    | .admitted c _ => some c.num
    | .refused c _ => some c.num
    | _ => none

/-- The manager's loop does not for ever leave notifications alone that it could receive. -/
def FairNotes (d : Spec.Decay) (o : ErrOpts) (σ : Nat → State) (ev : Nat → Label) : Prop :=
  ∀ n, (∀ m, n ≤ m → ∃ i, (step d o (σ m) (.note i)).isSome = true) → ∃ m, n ≤ m ∧ ∃ i, ev m = .note i

/-- A step that neither opens nor ends a connection. -/
def NoChange : Label → Prop
  | .establish _ => False
  | .close _ => False
  | .hangUp _ => False
  | _ => True

end Enforce
end KP2P
