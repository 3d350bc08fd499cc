import Verif.Model.GossipServ
/-!
# Vocabulary for the gossip service as a whole
-/

namespace KP2P.Spec.Serv
open KP2P.Serv

/-- Reachable by steps that satisfy `P`. -/
inductive Reach (cap : GossipRun.Cap) (o : ToggleOpts) (P : State → Label → Prop) : State → Prop
  | init : Reach cap o P KP2P.Serv.init
  | step {s s' : State} {l : Label} : Reach cap o P s → P s l → step cap o s l = some s' → Reach cap o P s'

/-- The last status broadcast; "off" before the first. -/
def lastTold (s : State) : Bool := s.told.getLast?.getD false

/-- The toggle is not in the middle of switching. -/
def AtRest (s : State) : Prop := s.tog = .fresh ∨ s.tog = .idle ∨ s.tog = .returned

/-- Every start-up goroutine of the topic has run. -/
def TopicLaunched (t : GossipRun.State) : Prop := ∀ (i : Nat) g, t.gens[i]? = some g → g.pc ≠ .spawned

def Launched (s : State) : Prop := TopicLaunched s.block ∧ TopicLaunched s.tx

/-- The node is not being closed. -/
def NotClosing (_ : State) (l : Label) : Prop := l ≠ .close

/-- Start-up goroutines have run by the toggle's next check, one second later. -/
def Prompt (s : State) (l : Label) : Prop := ∀ conns now, l = .tick conns now → Launched s

/-- `Close` is called only when the toggle's goroutine has returned and all start-up goroutines have run. -/
def CloseLast (s : State) (l : Label) : Prop := l = .close → s.tog = .returned ∧ Launched s

/-- Every context that was made for gossip has ended. -/
def AllCancelled (s : State) : Prop :=
  (∀ (i : Nat) g, s.block.gens[i]? = some g → g.cancelled = true) ∧
  (∀ (i : Nat) g, s.tx.gens[i]? = some g → g.cancelled = true)

/-- The number of blocks a statistics goroutine has taken and not yet logged. -/
def inHand : Stat → Nat
  | .took n => n.toNat
  | _ => 0

/-- An infinite execution from the start; a process that has panicked stays as it is. -/
def Exec (cap : GossipRun.Cap) (o : ToggleOpts) (σ : Nat → State) (ev : Nat → Label) : Prop :=
  σ 0 = KP2P.Serv.init ∧
  ∀ n, ((σ n).dead = true ∧ σ (n + 1) = σ n) ∨ step cap o (σ n) (ev n) = some (σ (n + 1))

/-- A statement of the toggle's goroutine within a switch. -/
def OfToggle (l : Label) : Prop := l = .toggle ∨ l = .set

/-- The toggle's goroutine is not put off for ever. -/
def FairToggle (cap : GossipRun.Cap) (o : ToggleOpts) (σ : Nat → State) (ev : Nat → Label) : Prop :=
  ∀ n, (∀ m, n ≤ m → ∃ l, OfToggle l ∧ (step cap o (σ m) l).isSome = true) → ∃ m, n ≤ m ∧ OfToggle (ev m)

/-- What the toggle hears of: head updates and the outcomes of its checks. -/
def heard : Label → Option Toggle.Event
  | .head t => some (.head t)
  | .tick conns now => some (.tick conns now)
  | _ => none

/-- The `i`-th statistics goroutine gets its turn: it is not held up for ever after its minute has passed, nor between the
two counters. -/
def FairStat (cap : GossipRun.Cap) (o : ToggleOpts) (σ : Nat → State) (ev : Nat → Label) (i : Nat) : Prop :=
  ∀ n, (∀ m, n ≤ m → (step cap o (σ m) (.take i)).isSome = true ∨ (step cap o (σ m) (.log i)).isSome = true) →
    ∃ m, n ≤ m ∧ (ev m = .take i ∨ ev m = .log i)

/-- Its `select` does not pass over the end of its context for ever. -/
def FairFinish (cap : GossipRun.Cap) (o : ToggleOpts) (σ : Nat → State) (ev : Nat → Label) (i : Nat) : Prop :=
  ∀ n, (∀ m, n ≤ m → ∃ k, m ≤ k ∧ (step cap o (σ k) (.finish i)).isSome = true) → ∃ m, n ≤ m ∧ ev m = .finish i

/-- The number of blocks logged. -/
def blocksLogged (s : State) : Nat := (s.logged.map fun p => p.1.toNat).sum

/-- The number of transactions logged. -/
def trxsLogged (s : State) : Nat := (s.logged.map fun p => p.2.toNat).sum

end KP2P.Spec.Serv
