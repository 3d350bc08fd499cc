import Verif.Model.Applicator
/-!
# Specification: whose blocks count against a producer
-/

namespace KP2P.Spec.Framing
open KP2P.App

/-- In this execution block `f` was handed over, and the height of `b` has not been reported irreversible since. -/
def HandedSince (ls : List Label) (b f : Blk) : Prop :=
  ∃ pre post, ls = pre ++ .applyBlock f :: post ∧ ∀ heads lib, Label.forkHeads heads lib ∈ post → lib < b.height

/-- Same height, producer and parent as far as the header says. -/
def Claims (f b : Blk) : Prop := f.height = b.height ∧ f.signer = b.signer ∧ f.previous = b.previous

/-- The call of `ApplyBlock` with block `b` that takes the node from `s` to `s'` returns at once with error `e`. -/
def Refused (s s' : AState) (b : Blk) (e : Err) : Prop :=
  s'.log = .refused s.nextReq (some e) :: .call s.nextReq b :: s.log ∧ s'.newQ = s.newQ

/-- The claim: a block is refused as one of too many only if its producer made too many. `genuine` are the blocks that the producers
named in their headers have really made. -/
def OwnBlocksOnly (o : AppOpts) (genuine : Blk → Prop) : Prop :=
  ∀ hi lib T0 ls s s' b, run o (init hi lib T0) ls = some s → genuine b → step o s (.applyBlock b) = some s' →
    Refused s s' b (.sentinel .forkBomb) →
    ∃ fs : List Blk, (fs.map Blk.id).Nodup ∧ 3 < fs.length ∧ ∀ f ∈ fs, genuine f ∧ Claims f b

end KP2P.Spec.Framing
