import Verif.Base.Basic
/-!
# Specification of fork-bomb detection
-/

namespace KP2P.Spec

/-- The two public operations. -/
inductive WOp where
  | add (b : Blk)
  | purge (lib : UInt64)
  deriving DecidableEq, Repr

/-- Same producer, same parent, same height. -/
def SameSlot (a b : Blk) : Prop := a.height = b.height ∧ a.signer = b.signer ∧ a.previous = b.previous

instance (a b : Blk) : Decidable (SameSlot a b) := by unfold SameSlot; infer_instance

/-- `id` was added in the slot of `b`, and the height of that slot has not been purged since. -/
def AddedSince (hist : List WOp) (b : Blk) (id : Bytes) : Prop :=
  ∃ pre b' post, hist = pre ++ WOp.add b' :: post ∧ b'.id = id ∧ SameSlot b' b ∧
    ∀ lib, WOp.purge lib ∈ post → lib < b.height

/-- More than three distinct ids have been added in the slot of `b` since its height was last purged. -/
def TooManyForks (hist : List WOp) (b : Blk) : Prop :=
  ∃ ids : List Bytes, ids.Nodup ∧ ids.length = 4 ∧ ∀ id ∈ ids, AddedSince hist b id

/-- The blocks added so far whose height has not been purged since. -/
def survivors : List WOp → List Blk → List Blk
  | [], l => l
  | .add b :: rest, l => survivors rest (l ++ [b])
  | .purge lib :: rest, l => survivors rest (l.filter fun b => decide (lib < b.height))

/-- A history in which the blocks at or below `lib` were never added. -/
def dropUpTo (lib : UInt64) (hist : List WOp) : List WOp :=
  hist.filter fun op => match op with
    | .add b => decide (lib < b.height)
    | .purge _ => true

end KP2P.Spec
