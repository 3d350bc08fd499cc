import Verif.Model.Life
/-!
# Vocabulary for the life of the program
-/

namespace KP2P.Spec.Life
open KP2P.Life

/-- An infinite execution of the program. A step that changes nothing stands for the rest of the world. -/
def Exec (σ : Nat → State) (ev : Nat → Option Label) : Prop :=
  σ 0 = init ∧
  ∀ n, match ev n with
    | some l => step (σ n) l = some (σ (n + 1))
    | none => σ (n + 1) = σ n

/-- Something that can always be done is done. -/
def Weak (σ : Nat → State) (ev : Nat → Option Label) (l : Label) : Prop :=
  ∀ n, (∀ m, n ≤ m → (step (σ m) l).isSome = true) → ∃ m, n ≤ m ∧ ev m = some l

/-- Something that can be done again and again is done. -/
def Strong (σ : Nat → State) (ev : Nat → Option Label) (l : Label) : Prop :=
  ∀ n, (∀ m, n ≤ m → ∃ k, m ≤ k ∧ (step (σ k) l).isSome = true) → ∃ m, n ≤ m ∧ ev m = some l

/-- The services and the host, asked for ever, answer well once. -/
structure Answers (σ : Nat → State) (ev : Nat → Option Label) : Prop where
  probe : Weak σ ev (.probe true)
  build : Weak σ ev (.build true)
  head : Weak σ ev (.head true)
  forks : Weak σ ev (.forks true)

/-- The goroutines of the program are scheduled. -/
structure Fair (σ : Nat → State) (ev : Nat → Option Label) : Prop where
  main : ∀ l ∈ [Label.handler, .notify, .errors, .toggle, .manager, .applicator, .install, .take, .exit,
    .net .close, .net .hostClose, .net .done], Weak σ ev l
  starter : Weak σ ev .list ∧ Weak σ ev (.net .spawn)
  answer : Weak σ ev (.net .answer)
  took : ∀ i, Strong σ ev (.net (.took i))
  left : ∀ i, Strong σ ev (.net (.left i))

/-- A question that was answered badly and is asked again. -/
def Retried : Label → Bool
  | .probe false | .forks false => true
  | _ => false

/-- Both services have answered, and the chain has told its head and its fork heads. -/
def Answered (ls : List Label) : Prop :=
  2 ≤ ls.count (.probe true) ∧ .head true ∈ ls ∧ .forks true ∈ ls

/-- The host has a peer: a connection that has not been closed, whether or not its being made has been taken notice of. -/
def HasPeer (s : Closing.State) : Prop := ∃ l ∈ s.links, l = .up ∨ l = .opening false

/-- No peer is connected when the connection manager looks for peers. -/
def Quiet (σ : Nat → State) (ev : Nat → Option Label) : Prop := ∀ n, ev n = some .list → ¬ HasPeer (σ n).net

end KP2P.Spec.Life
