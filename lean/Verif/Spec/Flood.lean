import Verif.Model.Flood
/-!
# What gossip is to achieve in a network
-/

namespace KP2P
namespace Spec
namespace Flood
open KP2P.Flood

/-- From `v` to `w` there is a way along which all nodes after `v` run this code. -/
inductive Path (n : Net) (v : Bytes) : Bytes → Prop
  | here : Path n v v
  | step (w x : Bytes) : Path n v w → x ∈ n.adj w → n.honest x = true → Path n v x

/-- An infinite execution from the beginning. -/
def Exec (n : Net) (σ : Nat → State) (ev : Nat → Label) : Prop := σ 0 = init ∧ ∀ k, step n (σ k) (ev k) = some (σ (k + 1))

/-- The step is the arrival of packet `p`. -/
def Arrives (p : Packet) (s : State) : Label → Prop
  | .arrive i => s.flight[i]? = some p
  | _ => False

/-- The step is the end of the validation of packet `p`. -/
def Judged (p : Packet) (s : State) : Label → Prop
  | .judge i _ _ => s.judging[i]? = some p
  | _ => False

/-- No packet is on its way for ever. -/
def FairDelivery (σ : Nat → State) (ev : Nat → Label) : Prop :=
  ∀ p k, (∀ j, k ≤ j → p ∈ (σ j).flight) → ∃ j, k ≤ j ∧ Arrives p (σ j) (ev j)

/-- No validation of this contents goes on for ever. -/
def FairJudging (data : Bytes) (σ : Nat → State) (ev : Nat → Label) : Prop :=
  ∀ p k, p.msg.data = data → (∀ j, k ≤ j → p ∈ (σ j).judging) → ∃ j, k ≤ j ∧ Judged p (σ j) (ev j)

/-- The block is on the chain of `v`: `v` published it, or its applicator accepted it. -/
def Has (v : Bytes) (b : RawBlock) (s : State) : Prop := Obs.published v b ∈ s.log ∨ Obs.applied v b none ∈ s.log

/-- No validation of this contents goes on for ever once the block `parent` is on the chain of the validating node. -/
def FairAfter (parent : RawBlock) (data : Bytes) (σ : Nat → State) (ev : Nat → Label) : Prop :=
  ∀ p k, p.msg.data = data → Has p.dest parent (σ k) → (∀ j, k ≤ j → p ∈ (σ j).judging) → ∃ j, k ≤ j ∧ Judged p (σ j) (ev j)

/-- Fewer validations go on at `v` than may. -/
def Roomy (n : Net) (s : State) (v : Bytes) : Prop := s.judging.countP (fun q => q.dest = v) < n.room

/-- Whoever validates this contents finds the block not below its irreversible height `lib`, and its applicator accepts it; and no node is too busy
to validate it. -/
def Welcome (n : Net) (h : Header) (data : Bytes) (s : State) : Label → Prop
  | .arrive i => ∀ p, s.flight[i]? = some p → p.msg.data = data → n.honest p.dest = true → Roomy n s p.dest
  | .judge i lib answer => ∀ p, s.judging[i]? = some p → p.msg.data = data → lib.toNat ≤ h.height.toNat ∧ answer = none
  | _ => True

/-- How often `u` sent this contents to `v`. -/
def sendings (u v data : Bytes) (log : List Obs) : Nat :=
  log.countP fun
    | .sent a b x => decide (a = u ∧ b = v ∧ x = data)
    | _ => false

/-- How often `u` sent block `b` to `v`, in whatever encoding. -/
def blockSendings (n : Net) (u v : Bytes) (b : RawBlock) (log : List Obs) : Nat :=
  log.countP fun
    | .sent a w x => decide (a = u ∧ w = v) && (match n.decode x with | .ok b' => decide (b' = b) | .error _ => false)
    | _ => false

/-- All nodes judge blocks alike, and publish what they judge to be good. -/
def Agreed (n : Net) (verdict : RawBlock → Option Err) (s : State) : Label → Prop
  | .judge i _ answer => ∀ p b, s.judging[i]? = some p → n.decode p.msg.data = .ok b → answer = verdict b
  | .publish _ b => verdict b = none ∧ n.decode (n.encode b) = .ok b ∧ b.id ≠ none ∧ ∃ h, b.header = some h ∧ h.previous ≠ none
  | _ => True

/-- All steps of a run are of a kind. -/
def Along (n : Net) (P : State → Label → Prop) : State → List Label → Prop
  | _, [] => True
  | s, l :: ls => P s l ∧ ∀ s', step n s l = some s' → Along n P s' ls

end Flood
end Spec
end KP2P
