import Verif.Spec.Applicator
/-!
# Specification: blocks that nobody can apply
-/

namespace KP2P.Spec.Junk
open KP2P.App

/-- The ids that the chain has reported in this execution: of blocks that it has taken, and of its fork heads. -/
def Reported (ls : List Label) (id : Bytes) : Prop :=
  (∃ h, Label.broadcast id h ∈ ls) ∨ ∃ heads lib, Label.forkHeads heads lib ∈ ls ∧ id ∈ heads

/-- A block that leads, through blocks of `ws`, to one that the chain has reported. -/
inductive Connected (ls : List Label) (ws : List Blk) : Blk → Prop
  | known {b : Blk} : Reported ls b.previous → Connected ls ws b
  | parent {b p : Blk} : p ∈ ws → Connected ls ws p → b.previous = p.id → Connected ls ws b

/-- The claim: the node answers that too many blocks are waiting only if that many blocks are waiting that lead to something the chain
has. -/
def OnlyConnectedCount (o : AppOpts) : Prop :=
  ∀ hi lib T0 ls s s' i r, run o (init hi lib T0) ls = some s → step o s (.newBlock i) = some s' →
    s'.log = .answer r (some (.sentinel .maxPendingBlocks)) :: s.log →
    ∃ ws : List Blk, (ws.map Blk.id).Nodup ∧ (∀ w ∈ ws, w ∈ waitingBlocks s ∧ Connected ls (waitingBlocks s) w) ∧
      o.maxPendingBlocks.toNat ≤ ws.length

/-- As many blocks are waiting as may wait, and nothing is under way with any of them. -/
structure Jammed (o : AppOpts) (s : AState) : Prop where
  full : o.maxPendingBlocks.toNat ≤ (waitingBlocks s).length
  tries : s.tries = []
  retries : s.retries = []
  apps : s.apps = []

/-- Nothing that the chain reports by this step concerns one of the blocks `ws`: neither its parent nor its height. -/
def Unconcerned (ws : List Blk) : Label → Prop
  | .broadcast id _ => ∀ w ∈ ws, w.previous ≠ id
  | .forkHeads heads lib => ∀ w ∈ ws, w.previous ∉ heads ∧ lib < w.height
  | _ => True

end KP2P.Spec.Junk
