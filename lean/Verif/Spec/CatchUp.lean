import Verif.Spec.AllAccepted
import Verif.Spec.Peering
/-!
# Vocabulary for C132: rounds of synchronisation through the applicator
-/

namespace KP2P
namespace Spec
namespace CatchUp
open KP2P.PeerConn KP2P.PeerRPC KP2P.Peering

/-- Call `r` of `ApplyBlock` is over, with result `e`. -/
def Ended (log : List Obs) (r : Nat) (e : Option Err) : Prop := Obs.returned r e ∈ log ∨ Obs.refused r e ∈ log

/-- Block `b` from the network was handed to the applicator in a call that is over, with result `e`. -/
def Result (log : List Obs) (b : RawBlock) (e : Option Err) : Prop := ∃ x r, b.toBlk = some x ∧ Obs.call r x ∈ log ∧ Ended log r e

/-- The blocks of a chain up to height `H`. -/
def Upto (c : Spec.Peering.Chain) (H : Nat) (x : Blk) : Prop := ∃ k, 0 < k ∧ k ≤ H ∧ (c.blk k).toBlk = some x

/-- The blocks of the chain carry the ids of the chain, and each names its predecessor. -/
structure Sound (c : Spec.Peering.Chain) (H : Nat) : Prop where
  named : ∀ k, 0 < k → k ≤ H → ∃ x, (c.blk k).toBlk = some x ∧ x.id = c.id k
  linked : ∀ k, 0 < k → k < H → ∀ x, (c.blk (k + 1)).toBlk = some x → x.previous = c.id k

/-- The chain service has the blocks of `c` up to height `k`. -/
def HasUpto (s : Link.State) (c : Spec.Peering.Chain) (k : Nat) : Prop := ∀ j, 0 < j → j ≤ k → Link.Has s (c.id j)

/-- A round of synchronisation of a node whose last irreversible block is `lib`, whose block store answers `known`, with the peer
whose node answers `l`; `apply j b` is the result of handing over block `b` as the `j`-th. -/
structure Round where
  lib : Lib
  known : Bytes → Except Err (List UInt64)
  apply : Nat → RawBlock → Option Err
  synced : Bool

/-- The round as it happens. -/
def Round.result (o : Opts) (codec : Codec) (remote : Err → Nat) (l : Local) (r : Round) : SyncResult :=
  requestSyncBlocks o (syncEnv codec remote r.lib r.known r.apply l) r.synced

/-- The blocks handed to the applicator in the round. -/
def Round.handed (o : Opts) (codec : Codec) (remote : Err → Nat) (l : Local) (r : Round) : List RawBlock :=
  Spec.PeerConn.applied (r.result o codec remote l).calls

/-- How a round begins, with applicator and chain in state `s`: the irreversible block is on the peer's chain `c` and our chain has
the blocks of `c` up to it; the lag of irreversibility behind the blocks of `c` we have is at most `K`; the head of the peer, at height
`H`, is not in our block store unless our chain has it. -/
structure Begins (c : Spec.Peering.Chain) (head : Lib) (K : Nat) (s : Link.State) (r : Round) : Prop where
  lib : 0 < r.lib.height.toNat → c.id r.lib.height.toNat = r.lib.id
  has : HasUpto s c r.lib.height.toNat
  lag : ∀ k, k ≤ head.height.toNat → HasUpto s c k → k ≤ r.lib.height.toNat + K
  known : ¬ Link.Has s head.id → r.known head.id = .ok [0]

end CatchUp
end Spec
end KP2P
