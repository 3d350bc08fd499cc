import Verif.Model.Applicator
/-!
# Vocabulary for the properties of the applicator, in terms of the log of observable events and of what is waiting
-/

namespace KP2P
namespace App

/-- Numbers of the calls answered on their channel. -/
def answered (log : List Obs) : List Nat := log.filterMap fun
  | .answer r _ => some r
  | _ => none

/-- Numbers of the calls refused by the fork watchdog. -/
def refusedCalls (log : List Obs) : List Nat := log.filterMap fun
  | .refused r _ => some r
  | _ => none

/-- Numbers of the calls that returned from waiting. -/
def returnedCalls (log : List Obs) : List Nat := log.filterMap fun
  | .returned r _ => some r
  | _ => none

/-- Calls attached to waiting blocks. -/
def held (s : AState) : List Nat := s.byId.entries.flatMap fun x => x.2.chans

/-- Calls still in the queue of new blocks. -/
def queuedCalls (s : AState) : List Nat := s.newQ.map Prod.fst

/-- Some caller submitted exactly this block. -/
def Known (log : List Obs) (b : Blk) : Prop := ∃ r, Obs.call r b ∈ log

/-- Number of submissions of this id to the chain. -/
def submissions (log : List Obs) (id : Bytes) : Nat := log.countP fun
  | .submit b => decide (b.id = id)
  | _ => false

/-- Number of verdicts of the chain on this id. -/
def verdicts (log : List Obs) (id : Bytes) : Nat := log.countP fun
  | .verdict b _ => decide (b.id = id)
  | _ => false

/-- The block is waiting. -/
def Waiting (s : AState) (b : Blk) : Prop := ∃ x, s.byId.get b.id = some x ∧ x.block = b

/-- The waiting blocks. -/
def waitingBlocks (s : AState) : List Blk := s.byId.entries.map fun x => x.2.block

/-- The most recent event that leaves a block of this id waiting or ends an application of it. -/
def lastStop (log : List Obs) (id : Bytes) : Option Obs := log.find? fun
  | .deferred b => decide (b.id = id)
  | .status b _ => decide (b.id = id)
  | _ => false

/-- The id was last deferred on arrival, or its last application ended with unknown-previous-block. -/
def Parked (log : List Obs) (id : Bytes) : Prop :=
  match lastStop log id with
  | some (.deferred _) => True
  | some (.status _ e) => errIs e .unknownPreviousBlock = true
  | _ => False

/-- Number of applications of exactly this block begun. -/
def starts (log : List Obs) (b : Blk) : Nat := log.countP fun
  | .start c => decide (c = b)
  | _ => false

/-- Number of submissions of exactly this block. -/
def submitsOf (log : List Obs) (b : Blk) : Nat := log.countP fun
  | .submit c => decide (c = b)
  | _ => false

/-- The reasons to schedule a block for the first time. -/
inductive Justified (s : AState) (l : Label) (b : Blk) : Prop
  /-- it arrives, its height is at most one above the highest known block, and its parent is not being applied -/
  | arrival (i r : Nat) : l = .newBlock i → s.newQ[i]? = some (r, b) → b.height.toNat ≤ s.highest.toNat + 1 →
      (∀ a ∈ s.apps, a.blk.id ≠ b.previous) → Justified s l b
  /-- it is waiting and its parent is reported applied -/
  | parentApplied (i : Nat) (a : Blk) : l = .status i → s.apps[i]? = some ⟨a, .done none⟩ → a.id = b.previous →
      Waiting s b → Justified s l b
  /-- it is waiting and its parent is broadcast as accepted -/
  | parentBroadcast (n : UInt64) : l = .broadcast b.previous n → Waiting s b → Justified s l b
  /-- it is waiting and its parent is listed as a fork head -/
  | parentHead (heads : List Bytes) (L : UInt64) : l = .forkHeads heads L → b.previous ∈ heads → Waiting s b →
      Justified s l b

/-- At some point of the run there was such a reason. -/
def EverJustified (o : AppOpts) (s0 : AState) (ls : List Label) (b : Blk) : Prop :=
  ∃ pre l post s1, ls = pre ++ l :: post ∧ run o s0 pre = some s1 ∧ Justified s1 l b

/-- How many submissions of `b` an event allows: one for a timely arrival, one for every report that the parent of the
waiting block is accepted, one for a retry after a block-state error. -/
def grants (o : AppOpts) (s : AState) (l : Label) (b : Blk) : Nat :=
  match l with
  | .newBlock i =>
    match s.newQ[i]? with
    | some (_, c) =>
      if c = b ∧ c.height.toNat ≤ s.highest.toNat + 1 ∧ ¬ ∃ a ∈ s.apps, a.blk.id = c.previous then 1 else 0
    | none => 0
  | .status i =>
    match s.apps[i]? with
    | some ⟨c, .done e⟩ =>
      if errIs e .blockState then (if c = b then 1 else 0)
      else if e = none ∧ b ∈ waitingBlocks s ∧ b.previous = c.id then 1 else 0
    | _ => 0
  | .broadcast id _ => if b ∈ waitingBlocks s ∧ b.previous = id then 1 else 0
  | .forkHeads heads _ => if b ∈ waitingBlocks s then heads.count b.previous else 0
  | _ => 0

/-- Total over a run. -/
def granted (o : AppOpts) (s : AState) : List Label → Blk → Nat
  | [], _ => 0
  | l :: ls, b => grants o s l b + match step o s l with
    | some s' => granted o s' ls b
    | none => 0

/-- The admission decision of C13 in unbounded arithmetic. -/
def Spec.admit (highest delta waiting limit lib height : Nat) : Option Sentinel :=
  if height > highest + delta then some .maxHeight
  else if waiting ≥ limit then some .maxPendingBlocks
  else if height ≤ lib then some .blockIrreversibility
  else none

end App
end KP2P
