import Verif.Model.Races
import Mathlib.Logic.Relation
/-!
# Happens-before and data races (the Go memory model)
-/

namespace KP2P.Spec.Races
open KP2P.Races

/-- Event `i` comes directly before event `j`: in the same goroutine, by a `go` statement, by a mutex, by a message, or (if
`atomics` is set) by an atomic store and a later atomic operation. -/
def Edge (atomics : Bool) (tr : List Ev) (i j : Nat) : Prop :=
  i < j ∧ ∃ a b, tr[i]? = some a ∧ tr[j]? = some b ∧
    (a.1 = b.1 ∨ (∃ k, a.2 = .fork b.1 k) ∨ (∃ l, a.2 = .rel l ∧ b.2 = .acq l) ∨ (∃ m, a.2 = .send m ∧ b.2 = .recv m) ∨
      (atomics = true ∧ ∃ f m, a.2 = .acc .ast f ∧ b.2 = .acc m f ∧ (m = .ald ∨ m = .ast)))

/-- Happens before. -/
def HB (atomics : Bool) (tr : List Ev) (i j : Nat) : Prop := Relation.TransGen (Edge atomics tr) i j

/-- The access an operation makes. -/
def access : Op → Option (Mode × Field)
  | .new f => some (.wr, f)
  | .acc m f => some (m, f)
  | _ => none

def Mode.writes (m : Mode) : Prop := m = .wr ∨ m = .ast
def Mode.atomic (m : Mode) : Prop := m = .ald ∨ m = .ast

/-- Two accesses to the same memory by different goroutines, one of which writes, and not both of which are atomic. -/
def Conflict (a b : Ev) (f : Field) : Prop :=
  a.1 ≠ b.1 ∧ ∃ m m', access a.2 = some (m, f) ∧ access b.2 = some (m', f) ∧ (Mode.writes m ∨ Mode.writes m') ∧ ¬ (Mode.atomic m ∧ Mode.atomic m')

/-- A data race on `f`: two conflicting accesses of which neither happens before the other. -/
def Race (atomics : Bool) (tr : List Ev) (f : Field) : Prop :=
  ∃ i j a b, i < j ∧ tr[i]? = some a ∧ tr[j]? = some b ∧ Conflict a b f ∧ ¬ HB atomics tr i j

end KP2P.Spec.Races
