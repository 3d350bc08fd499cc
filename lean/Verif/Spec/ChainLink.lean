import Verif.Model.ChainLink
import Verif.Spec.ApplicatorFair
/-!
# Vocabulary for C111: an honest chain, and steps that are the code's known weak points
-/

namespace KP2P
namespace Link

/-- States reached by steps all of which satisfy `P`, from a start at which the chain's head is its highest block. -/
inductive Reach (o : AppOpts) (P : State → Label → Prop) : State → Prop where
  | init (highest lib : UInt64) (now : Int) (known : List (Bytes × UInt64)) :
      (∀ x ∈ known, x.2 ≤ highest) → Reach o P (init highest lib now known)
  | step {s s' : State} {l : Label} : Reach o P s → P s l → step o s l = some s' → Reach o P s'

/-- When an application of a block that the chain has accepted ends with an error (a lost or late reply, or the height check of
the worker), no child of the block waits. -/
def RepliesKept (s : State) (l : Label) : Prop :=
  ∀ i b e, l = .act (.status i) → s.app.apps[i]? = some ⟨b, .done (some e)⟩ → Has s b.id →
    ∀ c, App.Waiting s.app c → c.previous ≠ b.id

/-- An application of the block has ended with unknown-previous-block, and the main loop has not taken notice of it yet. -/
def TooEarly (s : AState) (b : Blk) : Prop :=
  ∃ a ∈ s.apps, a.blk.id = b.id ∧ ∃ e, a.stage = .done e ∧ errIs e .unknownPreviousBlock = true

/-- A block that is no longer waiting is not taken in again while such an application of it is left over. -/
def NoLeftover (s : State) (l : Label) : Prop :=
  ∀ i r b, l = .act (.newBlock i) → s.app.newQ[i]? = some (r, b) → ¬ App.Waiting s.app b → ¬ TooEarly s.app b

/-- The block was produced less than the force threshold ago (its time stamp is in milliseconds). -/
def Recent (o : AppOpts) (now : Int) (b : Blk) : Prop :=
  b.timestamp.toNat < 2 ^ 63 ∧ now - b.timestamp.toNat * 1000000 < o.forceChildRequestThreshold

/-- The step tells the applicator that the block with this id is accepted. -/
def Reports (s : State) (l : Label) (id : Bytes) : Prop :=
  (∃ i h, l = .deliver i ∧ s.news[i]? = some (id, h)) ∨
  ∃ i b, l = .act (.status i) ∧ s.app.apps[i]? = some ⟨b, .done none⟩ ∧ b.id = id

/-- Blocks that wait, and for which such an application is left over when their parent is reported as accepted, are recent at
that moment. -/
def InTime (o : AppOpts) (s : State) (l : Label) : Prop :=
  ∀ b, App.Waiting s.app b → Reports s l b.previous → TooEarly s.app b → Recent o s.app.now b

structure Calm (o : AppOpts) (s : State) (l : Label) : Prop where
  replies : RepliesKept s l
  leftover : NoLeftover s l
  recent : InTime o s l

/-- The assumptions made of an execution: replies, left-overs, time. -/
structure Which where
  replies : Bool := true
  leftover : Bool := true
  time : Bool := true

/-- The chosen assumptions. -/
def Chosen (w : Which) (o : AppOpts) (s : State) (l : Label) : Prop :=
  (w.replies = true → RepliesKept s l) ∧ (w.leftover = true → NoLeftover s l) ∧ (w.time = true → InTime o s l)

/-- Nothing is under way, between the goroutines of the applicator or from the chain. -/
structure Settled (s : State) : Prop where
  app : App.AtRest s.app
  news : s.news = []

/-- Nobody handed over a different block with the same id. -/
def OnlyOne (log : List Obs) (b : Blk) : Prop := ∀ c, App.Known log c → c.id = b.id → c = b

/-- The thresholds of the options are durations Go can hold. -/
def GoodOpts (o : AppOpts) : Prop :=
  -9223372036854775808 < o.forceChildRequestThreshold ∧ o.forceChildRequestThreshold ≤ 9223372036854775807

/-! ### Infinite executions -/

def Exec (o : AppOpts) (σ : Nat → State) (ev : Nat → Label) : Prop := ∀ n, step o (σ n) (ev n) = some (σ (n + 1))

def FairTo (o : AppOpts) (σ : Nat → State) (ev : Nat → Label) (C : Label → Prop) : Prop :=
  ∀ n, (∀ m, n ≤ m → ∃ x, C x ∧ (step o (σ m) x).isSome = true) → ∃ m, n ≤ m ∧ C (ev m)

/-- Nothing comes in from outside: no calls, no fork heads, and the chain does not answer with the block-state error. -/
def Quiet : Label → Prop
  | .accept _ _ _ => True
  | .deliver _ => True
  | .act l => App.Quiet l

/-- A fair execution in which nothing comes in: only finitely many more blocks are accepted, announcements are delivered, time
goes on, and no kind of step of the applicator is neglected for ever. -/
structure FairQuiet (o : AppOpts) (σ : Nat → State) (ev : Nat → Label) : Prop where
  exec : Exec o σ ev
  quiet : ∀ n, Quiet (ev n)
  finite : ∃ ids : List Bytes, ∀ n id prev h, ev n = .accept id prev h → id ∈ ids
  time : ∀ T : Int, ∃ n, T ≤ (σ n).app.now
  announced : FairTo o σ ev fun l => ∃ i, l = .deliver i
  fair : ∀ k : App.Kind, FairTo o σ ev fun l => ∃ x, l = .act x ∧ k.has x

end Link
end KP2P
