import Verif.Model.PeerConn
/-!
# Specification vocabulary for handshakes and synchronisation rounds
-/

namespace KP2P.Spec.PeerConn
open KP2P.PeerConn

/-- The protocol version is readable or reported missing. -/
def VersionOk (e : HsEnv) : Prop :=
  (∃ v, e.version = .ok v) ∨ ∃ err, e.version = .error err ∧ err.is .protocolMissing = true

/-- Both chain ids are available and equal. -/
def SameChain (e : HsEnv) : Prop := ∃ id, e.localChainID = .ok id ∧ e.peerChainID = .ok id

/-- The peer reports that the checkpoint number `i` is an ancestor of its head. -/
def OnCheckpoint (e : HsEnv) (head : Bytes) (i : Nat) (c : Checkpoint) : Prop := e.ancestor i head c.height = .ok c.id

/-- The peer is one we want to sync with. -/
def Matching (o : Opts) (e : HsEnv) : Prop :=
  VersionOk e ∧ SameChain e ∧ ∃ head height, e.peerHead = .ok (head, height) ∧
    ∀ i c, o.checkpoints[i]? = some c → OnCheckpoint e head i c

/-- The documented reason of a failed handshake: the first check that fails. -/
inductive Fails (o : Opts) (e : HsEnv) : Err → Prop
  | version (x : Err) : e.version = .error x → x.is .protocolMissing = false → Fails o e x
  | localChain (x : Err) : VersionOk e → e.localChainID = .error x → Fails o e x
  | chain (id : Bytes) : VersionOk e → e.localChainID = .ok id → e.peerChainID ≠ .ok id →
      Fails o e (.sentinel .chainIDMismatch)
  | head (x : Err) : VersionOk e → SameChain e → e.peerHead = .error x → Fails o e x
  | checkpoint (head : Bytes) (height : UInt64) (i : Nat) (c : Checkpoint) : VersionOk e → SameChain e →
      e.peerHead = .ok (head, height) → o.checkpoints[i]? = some c → ¬ OnCheckpoint e head i c →
      Fails o e (.sentinel .checkpointMismatch)

/-- The peer's chain is of interest: its head is above our irreversible block, unknown to us, and (above genesis) our
irreversible block is its ancestor. -/
def Wanted (e : SyncEnv) (headID : Bytes) (head : UInt64) : Prop :=
  e.peerHead = .ok (headID, head) ∧ e.lib.height.toNat < head.toNat ∧ e.blocksByID headID = .ok [0] ∧
    (0 < e.lib.height.toNat → e.ancestor headID e.lib.height = .ok e.lib.id)

/-- The blocks handed to the applicator, in order. -/
def applied (calls : List Call) : List RawBlock :=
  calls.filterMap fun | .applyBlock b => some b | _ => none

/-- An application result that does not stop the batch. -/
def Passes (r : Option Err) : Prop := r = none ∨ ∃ e, r = some e ∧ e.is .blockIrreversibility = true

/-- How a failure that stops the batch is reported. -/
def reported (e : Err) : Err :=
  if e.is .localRPCTimeout || e.is .forkBomb then e else wrapS .blockApplication e

end KP2P.Spec.PeerConn
