import Verif.Model.Peering
import Verif.Model.Session
import Verif.Spec.PeerConn
/-!
# Honest peers
-/

namespace KP2P
namespace Spec
namespace Peering
open KP2P.PeerConn KP2P.PeerRPC KP2P.Peering

/-- A chain of blocks: the block of each height, with its id. -/
structure Chain where
  blk : Nat → RawBlock
  id : Nat → Bytes

/-- The node with local RPC `l` is on network `net`, its head is the block of height `head.height` of chain `c`, and its block store
hands out the blocks of this chain. -/
structure Keeps (l : Local) (net : Bytes) (head : Lib) (c : Chain) : Prop where
  net : l.chainID = .ok net
  top : l.head = .ok (some head)
  store : ∀ (s : UInt64) (n : UInt32), 0 < s.toNat → s.toNat + n.toNat ≤ head.height.toNat + 1 →
    ∃ items, l.byHeight head.id s n = .ok items ∧ items.length = n.toNat ∧
      ∀ i x, items[i]? = some x → x.block = some (c.blk (s.toNat + i)) ∧ x.id = c.id (s.toNat + i)
  heights : ∀ k, 0 < k → k ≤ head.height.toNat → ∃ h, (c.blk k).header = some h ∧ h.height.toNat = k

/-- The version of the peer is readable or missing. -/
def VersionFine (v : Except Err Version) : Prop := (∃ x, v = .ok x) ∨ ∃ err, v = .error err ∧ err.is .protocolMissing = true

/-- The replies of a handshake with an honest peer of our network that is past all our checkpoints, our own node answering. -/
def HonestHandshake (o : Opts) (net : Bytes) (e : HsEnv) : Prop :=
  ∃ remote v l head c, e = hsEnv remote v (.ok net) l ∧ VersionFine v ∧ Keeps l net head c ∧
    ∀ k ∈ o.checkpoints, 0 < k.height.toNat ∧ k.height.toNat ≤ head.height.toNat ∧ c.id k.height.toNat = k.id

/-- The replies of a round with an honest peer on our network whose chain contains our last irreversible block if it is that long,
our own node answering and refusing no block (except as irreversible already). The chain of the peer may be another one in every
round. -/
def HonestRound (net : Bytes) (e : SyncEnv) : Prop :=
  ∃ codec remote known apply l head c, e = syncEnv codec remote e.lib known apply l ∧ Keeps l net head c ∧
    (∀ id, ∃ h, known id = .ok [h]) ∧
    (0 < e.lib.height.toNat → e.lib.height.toNat < head.height.toNat → c.id e.lib.height.toNat = e.lib.id) ∧
    (∀ k, 0 < k → k ≤ head.height.toNat → ∃ x, codec.marshal (some (c.blk k)) = .ok x ∧ codec.unmarshal x = .ok (c.blk k)) ∧
    ∀ j b, Spec.PeerConn.Passes (apply j b)

/-- Every exchange with the peer is of this kind. -/
def HonestLabel (o : Opts) (net : Bytes) : Session.Label → Prop
  | .handshake e => HonestHandshake o net e
  | .round e => HonestRound net e
  | _ => True

/-- The peer never names our network in a handshake. -/
def StrangerLabel (net : Bytes) : Session.Label → Prop
  | .handshake e => e.localChainID = .ok net ∧ e.peerChainID ≠ .ok net
  | _ => True

end Peering
end Spec
end KP2P
