import Verif.Model.NodeClose
/-!
# Vocabulary for closing the node
-/

namespace KP2P.Spec.Closing
open KP2P.Closing

/-- An infinite execution of a node started while its host had `already` connections. A step that changes nothing stands
for the rest of the world (and for a node in which nothing happens any more). -/
def Exec (already : Nat) (σ : Nat → State) (ev : Nat → Option Label) : Prop :=
  σ 0 = init already ∧
  ∀ n, match ev n with
    | some l => step (σ n) l = some (σ (n + 1))
    | none => σ (n + 1) = σ n

/-- Something that can always be done is done. -/
def Weak (σ : Nat → State) (ev : Nat → Option Label) (l : Label) : Prop :=
  ∀ n, (∀ m, n ≤ m → (step (σ m) l).isSome = true) → ∃ m, n ≤ m ∧ ev m = some l

/-- Something that can be done again and again is done: a `select` does not pass over a ready case for ever. -/
def Strong (σ : Nat → State) (ev : Nat → Option Label) (l : Label) : Prop :=
  ∀ n, (∀ m, n ≤ m → ∃ k, m ≤ k ∧ (step (σ k) l).isSome = true) → ∃ m, n ≤ m ∧ ev m = some l

structure Fair (σ : Nat → State) (ev : Nat → Option Label) : Prop where
  spawn : Weak σ ev .spawn
  answer : Weak σ ev .answer
  hostClose : Weak σ ev .hostClose
  done : Weak σ ev .done
  took : ∀ i, Strong σ ev (.took i)
  left : ∀ i, Strong σ ev (.left i)

/-- The manager goes on serving: nobody gives up waiting for the reply to a query, and the node's context lives. -/
def Kept (ev : Nat → Option Label) : Prop := ∀ n, ev n ≠ some .abandon ∧ ev n ≠ some .cancel

/-- A call of `Connected` or `Disconnected` for connection `i` has not returned. -/
def Pending (s : State) (i : Nat) : Prop := ∃ l, s.links[i]? = some l ∧ (l = .leaving ∨ ∃ c, l = .opening c)

end KP2P.Spec.Closing
