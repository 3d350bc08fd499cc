import Verif.Model.GossipRun
/-!
# Vocabulary for what is left of gossip after it is switched off
-/

namespace KP2P.Spec.GossipEnd
open KP2P.GossipRun

/-- An infinite execution; a crashed process stays as it is. -/
def Exec (cap : Cap) (σ : Nat → State) (ev : Nat → Label) : Prop :=
  ∀ n, ((σ n).crashed = true ∧ σ (n + 1) = σ n) ∨ step cap (σ n) (ev n) = some (σ (n + 1))

/-- A step of the reader of generation `i`. -/
def OfReader (i : Nat) : Label → Prop
  | .message j => j = i
  | .failed j => j = i
  | .send j => j = i
  | .quit j => j = i
  | _ => False

/-- A step of the reader of generation `i` that does not depend on messages from the network. -/
def OfReaderItself (i : Nat) : Label → Prop
  | .failed j => j = i
  | .send j => j = i
  | .quit j => j = i
  | _ => False

/-- Not put off for ever: if from some point on a step of kind `E` is always possible, one of kind `C` is made. -/
def Fair (cap : Cap) (σ : Nat → State) (ev : Nat → Label) (E C : Label → Prop) : Prop :=
  ∀ n, (∀ m, n ≤ m → ∃ l, E l ∧ (step cap (σ m) l).isSome = true) → ∃ m, n ≤ m ∧ C (ev m)

/-- The goroutines of generation `i` get their turn. A `select` that always has a message ready does not for ever overlook
that its context is done. Messages need not arrive. -/
def FairGen (cap : Cap) (σ : Nat → State) (ev : Nat → Label) (i : Nat) : Prop :=
  Fair cap σ ev (· = .launch i) (· = .launch i) ∧ Fair cap σ ev (· = .leave i) (· = .leave i) ∧
  Fair cap σ ev (OfReaderItself i) (OfReader i)

/-- Both goroutines of a generation have returned (the second one may never have been started). -/
def Gone (g : Gen) : Prop := g.pc = .returned ∧ (g.reader = .none ∨ g.reader = .returned)

/-- The calls of `StartGossip` and `StopGossip` alternate, `on` telling whether the last one was a start. -/
def Alternate : Bool → List Label → Prop
  | _, [] => True
  | on, .start :: ls => on = false ∧ Alternate true ls
  | _, .cancel :: ls => Alternate false ls
  | on, _ :: ls => Alternate on ls

end KP2P.Spec.GossipEnd
