import Verif.Spec.ChainLink
/-!
# Vocabulary for C125: blocks handed over in any order
-/

namespace KP2P
namespace Link

/-- The errors with which the applicator itself turns a call away. -/
def OwnError (x : Sentinel) : Prop := x = .maxHeight ∨ x = .maxPendingBlocks ∨ x = .blockIrreversibility

/-- The chain is willing to take the block: an application of it ends with success, because the parent is still missing, or
with the block-state error, after which it is repeated. -/
def Willing (e : Option Err) : Prop := e = none ∨ errIs e .unknownPreviousBlock = true ∨ errIs e .blockState = true

/-- What is assumed of the blocks `S`, in terms of the events so far. -/
structure Clean (S : Blk → Prop) (log : List Obs) : Prop where
  /-- nobody handed over a different block with the same id -/
  one : ∀ b, S b → OnlyOne log b
  /-- no call for them is refused by the fork watchdog or turned away by the applicator -/
  refused : ∀ b r e, S b → Obs.call r b ∈ log → Obs.refused r e ∉ log
  admitted : ∀ b r x, S b → OwnError x → Obs.call r b ∈ log → Obs.answer r (some (.sentinel x)) ∉ log
  /-- the chain is willing, and gives its verdict on a block of the future before the waiting time-out -/
  willing : ∀ b e, S b → Obs.status b e ∈ log → Willing e
  patient : ∀ b, S b → Obs.delayTimeout b ∉ log
  /-- the parent of each is one of them too, or a block whose applications (if any) succeed -/
  parents : ∀ b, S b → (∃ p, S p ∧ p.id = b.previous ∧ p.height.toNat + 1 = b.height.toNat) ∨
    ∀ c e, c.id = b.previous → Obs.status c e ∈ log → e = none

/-- The blocks `S` have been handed over, and those whose parent is not among them have an accepted parent. -/
structure HandedOver (S : Blk → Prop) (s : State) : Prop where
  clean : Clean S s.app.log
  called : ∀ b, S b → App.Known s.app.log b
  roots : ∀ b, S b → (∃ p, S p ∧ p.id = b.previous ∧ p.height.toNat + 1 = b.height.toNat) ∨
    ∃ h, (b.previous, h) ∈ s.accepted ∧ b.height.toNat ≤ h.toNat + 1

/-- Of the blocks `S` the chain has accepted, it knows the parent, and it announces them with their own height. -/
def Truthful (S : Blk → Prop) (s : State) : Prop :=
  ∀ b, S b → ∀ h, (b.id, h) ∈ s.accepted → h = b.height ∧ Has s b.previous

/-- What is assumed of each step: the chain is truthful, and blocks of `S` that wait, and for which an application that came
too early is left over when their parent is reported as accepted, are recent at that moment. -/
def Fit (S : Blk → Prop) (o : AppOpts) (s : State) (l : Label) : Prop :=
  Truthful S s ∧ ∀ b, S b → App.Waiting s.app b → Reports s l b.previous → TooEarly s.app b → Recent o s.app.now b

end Link
end KP2P
