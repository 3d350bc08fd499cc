import Verif.Model.PeerRPC
/-!
# A node and an honest peer

The replies a handshake (peer_connection.go:34-90) and a synchronisation round (peer_connection.go:92-191) get when the
peer runs the service of peer_rpc_service.go over its own local RPC and the calls go through peer_rpc.go. Simplification:
the peer's local answers do not change during one handshake or one round (the requests of one round take a moment; a
peer whose chain moves on meanwhile is a peer with other answers, which the theorems about arbitrary replies cover).
-/

namespace KP2P
namespace Peering
open PeerConn PeerRPC

/-- A Go function's two results, read by a caller that looks at the error first (peer_connection.go:60-62, 72-74, 80-82,
100-102, 134-136). -/
def toExcept {α : Type} (r : Ret α) : Except Err α :=
  match r.err with
  | none => .ok r.val
  | some e => .error e

/-- peer_rpc.go:28-40 against peer_rpc_service.go:69-77. -/
def askChainID (remote : Err → Nat) (l : Local) : Except Err Bytes :=
  toExcept (getChainID (deliver remote [] (serveChainID l)))

/-- peer_rpc.go:43-55 against peer_rpc_service.go:80-89. -/
def askHead (remote : Err → Nat) (l : Local) : Except Err (Bytes × UInt64) :=
  toExcept (getHeadBlock (deliver remote ([], 0) (serveHeadBlock l)))

/-- peer_rpc.go:58-73 against peer_rpc_service.go:92-104. -/
def askAncestor (remote : Err → Nat) (l : Local) (head : Bytes) (height : UInt64) : Except Err Bytes :=
  toExcept (getAncestorBlockID (fun p h => deliver remote [] (serveAncestor l p h)) head height)

/-- peer_rpc.go:76-106 against peer_rpc_service.go:107-122. -/
def askBlocks (c : Codec) (remote : Err → Nat) (l : Local) (head : Bytes) (start : UInt64) (num : UInt32) :
    Except Err (List RawBlock) :=
  getBlocks c (fun h s n => deliver remote [] (serveBlocks c l h s n)) head start num

/-- peer_connection.go:34-90: the replies of a handshake with a peer whose local RPC is `l`; `mine` is the reply of our
own chain, `v` the outcome of the version look-up. -/
def hsEnv (remote : Err → Nat) (v : Except Err Version) (mine : Except Err Bytes) (l : Local) : HsEnv where
  version := v
  localChainID := mine
  peerChainID := askChainID remote l
  peerHead := askHead remote l
  ancestor := fun _ head height => askAncestor remote l head height

/-- peer_connection.go:92-191: the replies of a round with such a peer. `lib`, `known` and `apply` are our side: the last
irreversible block, the block store's heights for a block id, and the results of applying blocks. -/
def syncEnv (c : Codec) (remote : Err → Nat) (lib : Lib) (known : Bytes → Except Err (List UInt64))
    (apply : Nat → RawBlock → Option Err) (l : Local) : SyncEnv where
  lib := lib
  peerHead := askHead remote l
  blocksByID := known
  ancestor := askAncestor remote l
  blocks := askBlocks c remote l
  apply := apply

end Peering
end KP2P
