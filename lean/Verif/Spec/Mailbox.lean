import Verif.Model.Mailbox
/-!
# What it means that calls end with their contexts
-/

namespace KP2P
namespace Spec
namespace Mail
open KP2P.Mail

/-- Call `r` has been made and has not returned. -/
def Open (s : State) (r : Nat) : Prop := Obs.called r ∈ s.log ∧ ∀ b, Obs.returned r b ∉ s.log

/-- The context of call `r` has ended. -/
def Over (s : State) (r : Nat) : Prop := Obs.expired r ∈ s.log

/-- Call `r` can return, without anybody else doing anything. -/
def CanReturn (cap : Nat) (s : State) (r : Nat) : Prop := (step cap s (.takeReply r)).isSome = true ∨ (step cap s (.giveUp r)).isSome = true

/-- In every execution a call whose context has ended can return. -/
def EndsWithContext (cap : Nat) : Prop := ∀ s r, Reachable cap s → Open s r → Over s r → CanReturn cap s r

/-- The loop goes on receiving: if it can receive from some point on, it does. -/
def FairReceive (cap : Nat) (σ : Nat → State) (ev : Nat → Label) : Prop :=
  ∀ n, (∀ m, n ≤ m → (step cap (σ m) .receive).isSome = true) → ∃ m, n ≤ m ∧ ev m = .receive

/-- Call `r` is not neglected for ever: if from some point on it can always return, it does. -/
def FairReturn (cap : Nat) (σ : Nat → State) (ev : Nat → Label) (r : Nat) : Prop :=
  ∀ n, (∀ m, n ≤ m → CanReturn cap (σ m) r) → ∃ m, n ≤ m ∧ (ev m = .takeReply r ∨ ev m = .giveUp r)

end Mail
end Spec
end KP2P
