import Verif.Model.PeerConn
/-!
# Model of internal/rpc/peer_rpc.go and internal/rpc/peer_rpc_service.go

The client functions are functions of what `gorpc.Client.CallContext` gives back; the service functions are functions of
what the local RPC gives back. Protobuf encoding and decoding of a block are parameters (`Codec`). Simplification: gorpc
fills the reply structure or returns an error; the transport itself is not modelled.
-/

namespace KP2P
namespace PeerRPC

/-- `proto.Marshal` of a block pointer (nil allowed) and `proto.Unmarshal` into a block. -/
structure Codec where
  marshal : Option RawBlock → Except Err Bytes
  unmarshal : Bytes → Except Err RawBlock

/-- The two results of a Go function returning a value and an error. -/
structure Ret (α : Type) where
  val : α
  err : Option Err
  deriving DecidableEq, Repr

/-- peer_rpc.go:33-37 (and 47-51, 66-70, 85-89): the error made from a failed call. -/
def callErr (e : Err) : Err :=
  if e.isDeadline then wrapS .peerRPCTimeout e else wrapS .peerRPC e

/-- peer_rpc.go:28-40, `GetChainID`: `call` is the reply structure and the error after `CallContext`. -/
def getChainID (call : Ret Bytes) : Ret Bytes := ⟨call.val, call.err.map callErr⟩

/-- peer_rpc.go:43-55, `GetHeadBlock`. -/
def getHeadBlock (call : Ret (Bytes × UInt64)) : Ret (Bytes × UInt64) := ⟨call.val, call.err.map callErr⟩

/-- peer_rpc.go:58-73, `GetAncestorBlockID`. -/
def getAncestorBlockID (call : Bytes → UInt64 → Ret Bytes) (parent : Bytes) (height : UInt64) : Ret Bytes :=
  ⟨(call parent height).val, (call parent height).err.map callErr⟩

/-- peer_rpc.go:98-103, the decoding loop. -/
def decodeAll (c : Codec) : List Bytes → Except Err (List RawBlock)
  | [] => .ok []
  | x :: xs =>
    match c.unmarshal x with
    | .error e => .error (wrapS .deserialization e)
    | .ok b =>
      match decodeAll c xs with
      | .error e => .error e
      | .ok bs => .ok (b :: bs)

/-- peer_rpc.go:76-106, `GetBlocks`. -/
def getBlocks (c : Codec) (call : Bytes → UInt64 → UInt32 → Ret (List Bytes)) (head : Bytes) (start : UInt64)
    (num : UInt32) : Except Err (List RawBlock) :=
  match (call head start num).err with
  | some e => .error (callErr e)
  | none =>
    let blocks := (call head start num).val
    -- line 92: uint32(len(rpcResp.Blocks)) != numBlocks
    if UInt32.ofNat blocks.length ≠ num then .error (noteS .peerRPC)
    else decodeAll c blocks

/-! ### The service -/

/-- `block_store.BlockItem`, the fields used. -/
structure Item where
  id : Bytes
  height : UInt64
  block : Option RawBlock
  deriving DecidableEq, Repr

/-- The local RPC as used by the service (`rpc.LocalRPC`). The head reply carries a pointer to the topology, which may be
nil. -/
structure Local where
  chainID : Except Err Bytes
  head : Except Err (Option PeerConn.Lib)
  byHeight : Bytes → UInt64 → UInt32 → Except Err (List Item)

/-- How a service function ends. -/
inductive Served (α : Type) where
  | ok (r : α)
  | err (e : Err)
  | panic
  deriving DecidableEq, Repr

/-- peer_rpc_service.go:69-77, `GetChainID`. -/
def serveChainID (l : Local) : Served Bytes :=
  match l.chainID with
  | .error e => .err e
  | .ok id => .ok id

/-- peer_rpc_service.go:80-89, `GetHeadBlock`: lines 86 and 87 dereference the topology. -/
def serveHeadBlock (l : Local) : Served (Bytes × UInt64) :=
  match l.head with
  | .error e => .err e
  | .ok none => .panic
  | .ok (some t) => .ok (t.id, t.height)

/-- peer_rpc_service.go:92-104, `GetAncestorBlockID`; `other 0` is the error made in line 99. -/
def serveAncestor (l : Local) (parent : Bytes) (height : UInt64) : Served Bytes :=
  match l.byHeight parent height 1 with
  | .error e => .err e
  | .ok [i] => .ok i.id
  | .ok _ => .err (.other 0)

/-- peer_rpc_service.go:114-119, the encoding loop. -/
def encodeAll (c : Codec) : List Item → Except Err (List Bytes)
  | [] => .ok []
  | i :: is =>
    match c.marshal i.block with
    | .error e => .error e
    | .ok x =>
      match encodeAll c is with
      | .error e => .error e
      | .ok xs => .ok (x :: xs)

/-- peer_rpc_service.go:107-122, `GetBlocks`. -/
def serveBlocks (c : Codec) (l : Local) (head : Bytes) (start : UInt64) (num : UInt32) : Served (List Bytes) :=
  match l.byHeight head start num with
  | .error e => .err e
  | .ok items =>
    match encodeAll c items with
    | .error e => .err e
    | .ok xs => .ok xs

/-- gorpc between a client and a service: the reply structure is filled on success; an error of the service reaches the
client as text only, so it is some error that is not a deadline (`remote`); a panic is never answered, so the call runs
into the client's deadline (simplification: if the process ends and the connection is seen to break first, the error is
another one; no theorem about complete answers depends on it). -/
def deliver {α : Type} (remote : Err → Nat) (zero : α) : Served α → Ret α
  | .ok r => ⟨r, none⟩
  | .err e => ⟨zero, some (.other (remote e))⟩
  | .panic => ⟨zero, some .ctxDeadline⟩

end PeerRPC
end KP2P
