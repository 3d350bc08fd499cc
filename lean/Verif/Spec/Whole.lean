import Verif.Model.Whole
import Verif.Spec.Flood
import Verif.Spec.AllAccepted
/-!
# Vocabulary for C144: executions of a whole network
-/

namespace KP2P
namespace Spec
namespace Whole
open KP2P.Whole
open KP2P.Flood (Net Packet)

/-- A node that starts: its chain has accepted some blocks, its head is the highest. -/
def Fresh (x : Link.State) : Prop := ∃ highest lib now known, (∀ y ∈ known, y.2 ≤ highest) ∧ x = Link.init highest lib now known

/-- An infinite execution from the beginning. -/
structure Exec (n : Net) (o : AppOpts) (σ : Nat → State) (ev : Nat → Label) : Prop where
  fresh : ∀ v, n.honest v = true → Fresh ((σ 0).node v)
  start : σ 0 = init (σ 0).node
  steps : ∀ k, step n o (σ k) (ev k) = some (σ (k + 1))

/-- What the step is for the applicator and the chain of `v` (a pause if it happens elsewhere). -/
def here (n : Net) (v : Bytes) (s : State) : Label → Link.Label
  | .node w l => if w = v then l else .act (.tick 0)
  | .submit i lib => match s.net.judging[i]? with
    | some p => if p.dest = v then
        match handed n p lib with
        | b :: _ => match b.toBlk with
          | some k => .act (.applyBlock k)
          | none => .act (.tick 0)
        | [] => .act (.tick 0)
      else .act (.tick 0)
    | none => .act (.tick 0)
  | _ => .act (.tick 0)

/-- Nothing is neglected for ever: packets arrive, validations go on when they can, and at each node time goes on, announcements of the chain
are delivered, and no kind of step of the applicator is neglected. -/
structure Fair (n : Net) (o : AppOpts) (σ : Nat → State) (ev : Nat → Label) : Prop where
  delivery : ∀ p k, (∀ j, k ≤ j → p ∈ (σ j).net.flight) → ∃ j i, k ≤ j ∧ ev j = .arrive i ∧ (σ j).net.flight[i]? = some p
  validation : ∀ p k, (∀ j, k ≤ j → ∃ i lib, (σ j).net.judging[i]? = some p ∧
      ((step n o (σ j) (.submit i lib)).isSome = true ∨ (step n o (σ j) (.finish i lib)).isSome = true)) →
    ∃ j i lib, k ≤ j ∧ (σ j).net.judging[i]? = some p ∧ (ev j = .submit i lib ∨ ev j = .finish i lib)
  time : ∀ v, n.honest v = true → ∀ (T : Int) (k : Nat), ∃ j, k ≤ j ∧ T ≤ ((σ j).node v).app.now
  announced : ∀ v, n.honest v = true → ∀ k, (∀ j, k ≤ j → ∃ i, (Link.step o ((σ j).node v) (.deliver i)).isSome = true) →
    ∃ j i, k ≤ j ∧ ev j = .node v (.deliver i)
  kinds : ∀ v, n.honest v = true → ∀ (x : App.Kind) (k : Nat),
    (∀ j, k ≤ j → ∃ l, x.has l ∧ (Link.step o ((σ j).node v) (.act l)).isSome = true) → ∃ j l, k ≤ j ∧ x.has l ∧ ev j = .node v (.act l)

/-- Only finitely much comes in: the messages have finitely many contents, from some time on nothing is forgotten (so that nothing is taken
twice), each chain accepts finitely many blocks, and at each node, from some
time on, no session hands over blocks, the fork heads do not change, and the chain does not answer with the block-state error. -/
structure Finite (n : Net) (σ : Nat → State) (ev : Nat → Label) : Prop where
  contents : ∃ D : List Bytes, ∀ k, (∀ p, ev k = .inject p → p.msg.data ∈ D) ∧ ∀ v b, ev k = .publish v b → n.encode b ∈ D
  remembered : ∃ K, ∀ k, K ≤ k → ∀ v id, ev k ≠ .forget v id
  accepted : ∀ v, n.honest v = true → ∃ ids : List Bytes, ∀ k id prev h, ev k = .node v (.accept id prev h) → id ∈ ids
  quiet : ∀ v, n.honest v = true → ∃ K, ∀ k, K ≤ k → ∀ l, ev k = .node v l → Link.Quiet l

/-- The blocks `c 0`, …, `c len` are complete and form a chain; their encodings can be read, and no other contents has the same hash. -/
structure Chain (n : Net) (c : Nat → RawBlock) (hd : Nat → Header) (len : Nat) : Prop where
  complete : ∀ i, i ≤ len → (c i).id ≠ none ∧ (c i).header = some (hd i) ∧ (hd i).previous ≠ none
  linked : ∀ i, i < len → str (c i).id = str (hd (i + 1)).previous ∧ (hd i).height.toNat + 1 = (hd (i + 1)).height.toNat
  decoded : ∀ i, i ≤ len → n.decode (n.encode (c i)) = .ok (c i)
  encoded : ∀ i, i ≤ len → ∀ a, n.encode a = n.encode (c i) → a = c i
  hashed : ∀ i, i ≤ len → ∀ x, n.sha x = n.sha (n.encode (c i)) → x = n.encode (c i)

/-- The blocks of the chain, as the applicator sees them. -/
def Blocks (c : Nat → RawBlock) (len : Nat) (b : Blk) : Prop := ∃ i, i ≤ len ∧ (c i).toBlk = some b

/-- What is assumed of node `v`: see `Link.Fit` and `Link.Clean`; its chain has the parent of the first block from the start; the main loop goes
on, and heights do not overflow; validators do not find the blocks below the irreversible height, and there is room for a validation when they arrive. -/
structure Ready (n : Net) (o : AppOpts) (c : Nat → RawBlock) (hd : Nat → Header) (len : Nat) (σ : Nat → State) (ev : Nat → Label) (v : Bytes) :
    Prop where
  fit : ∀ k, Link.Fit (Blocks c len) o ((σ k).node v) (here n v (σ k) (ev k))
  clean : ∀ k, Link.Clean (Blocks c len) ((σ k).node v).app.log
  root : ∃ h, (str (hd 0).previous, h) ∈ ((σ 0).node v).accepted ∧ (hd 0).height.toNat ≤ h.toNat + 1
  awake : ∀ k, ((σ k).node v).app.hung = false
  room : ∀ k, ((σ k).node v).app.highest.toNat + 1 < 2 ^ 64
  low : ∀ k i lib p j, ev k = .finish i lib → (σ k).net.judging[i]? = some p → p.dest = v → j ≤ len → p.msg.data = n.encode (c j) →
    lib.toNat ≤ (hd j).height.toNat
  roomy : ∀ k i p j, ev k = .arrive i → (σ k).net.flight[i]? = some p → p.dest = v → j ≤ len → p.msg.data = n.encode (c j) →
    Spec.Flood.Roomy n (σ k).net v

/-- No validation of one of the blocks at `v` gives up waiting for the applicator. -/
def Patient (n : Net) (c : Nat → RawBlock) (len : Nat) (σ : Nat → State) (v : Bytes) : Prop :=
  ∀ k x i, x ∈ (σ k).calls → x.node = v → i ≤ len → x.data = n.encode (c i) →
    Obs.returned x.number (some (.sentinel .blockApplicationTimeout)) ∉ ((σ k).node v).app.log

end Whole
end Spec
end KP2P
