import Verif.Model.PeerRPC
/-!
# Model of internal/rpc/koinos_rpc.go

Each call builds a request, encodes it, checks its size, sends it with `koinosmq.Client.RPC` and decodes the reply.
Encoding (`proto.Marshal`), the message queue and decoding (`proto.Unmarshal`) are parameters. A decoded reply is one of
the variants of `ChainResponse` / `BlockStoreResponse`; after decoding, the pointer inside a variant is never nil.
-/

namespace KP2P
namespace KoinosRPC
open PeerRPC (Item)

/-- `chain.ErrorCode` (koinos-proto), the codes of koinos_rpc.go:32-40; every other code is `other`. -/
inductive ErrorCode where
  | unknownPreviousBlock
  | preIrreversibilityBlock
  | blockStateError
  | invalidNonce
  | other (n : Int)
  deriving DecidableEq, Repr

/-- koinos_rpc.go:32-36, `blockErrorMap`. -/
def blockErrorMap : ErrorCode → Option Sentinel
  | .unknownPreviousBlock => some .unknownPreviousBlock
  | .preIrreversibilityBlock => some .blockIrreversibility
  | .blockStateError => some .blockState
  | _ => none

/-- koinos_rpc.go:38-40, `transactionErrorMap`. -/
def transactionErrorMap : ErrorCode → Option Sentinel
  | .invalidNonce => some .invalidNonce
  | _ => none

/-- koinos_rpc.go:28-30, `maxMessageSize`. -/
def maxMessageSize : Nat := 536870912

/-- The requests sent to the chain (`chainrpc.ChainRequest`). -/
inductive ChainReq where
  | getHeadInfo
  | submitBlock (b : RawBlock)
  | submitTransaction (t : Tx) (broadcast : Bool)
  | getChainId
  | getForkHeads
  | reserved
  deriving DecidableEq, Repr

/-- The requests sent to the block store (`block_store.BlockStoreRequest`); the last two arguments are `ReturnBlock` and
`ReturnReceipt`. -/
inductive StoreReq where
  | getBlocksById (ids : List Bytes) (block receipt : Bool)
  | getBlocksByHeight (head : Bytes) (start : UInt64) (num : UInt32) (block receipt : Bool)
  | reserved
  deriving DecidableEq, Repr

/-- The error variant of a reply: one entry per error detail, `none` for a detail that is not a `chain.ErrorDetails`
(`UnmarshalTo` fails). -/
abbrev Details := List (Option ErrorCode)

/-- A decoded `chainrpc.ChainResponse`. Contents koinos-p2p does not read are not modelled; `other` stands for the empty
reply and for every variant never asked for. -/
inductive ChainResp where
  | getHeadInfo (head : Option PeerConn.Lib)
  | submitBlock
  | submitTransaction
  | getChainId (id : Bytes)
  | getForkHeads (heads : List PeerConn.Lib) (lib : Option PeerConn.Lib)
  | error (details : Details)
  | other
  deriving DecidableEq, Repr

/-- A decoded `block_store.BlockStoreResponse`. -/
inductive StoreResp where
  | getBlocksById (items : List Item)
  | getBlocksByHeight (items : List Item)
  | error
  | other
  deriving DecidableEq, Repr

/-- Encoding, the message queue and decoding, for one service. -/
structure Wire (Req Resp : Type) where
  marshal : Req → Except Err Bytes
  rpc : Bytes → Except Err Bytes
  unmarshal : Bytes → Except Err Resp

/-- koinos_rpc.go:54-59, `checkMessageSize`; `other 0` is the error made in line 56 (it wraps nothing). -/
def checkMessageSize (b : Bytes) : Option Err :=
  if b.length > maxMessageSize then some (.other 0) else none

/-- The part all calls share: koinos_rpc.go:69-92, 118-141, 176-199, 240-263, 293-316, 340-363, 387-410, 446-469 and
483-506. -/
def exchange {Req Resp : Type} (w : Wire Req Resp) (q : Req) : Except Err Resp :=
  match w.marshal q with
  | .error e => .error (wrapS .serialization e)
  | .ok data =>
    match checkMessageSize data with
    | some e => .error e
    | none =>
      match w.rpc data with
      | .error e => .error (if e.isDeadline then wrapS .localRPCTimeout e else wrapS .localRPC e)
      | .ok reply =>
        match w.unmarshal reply with
        | .error e => .error (wrapS .deserialization e)
        | .ok r => .ok r

/-- koinos_rpc.go:62-106, `GetHeadBlock`. -/
def getHeadBlock (w : Wire ChainReq ChainResp) : Except Err (Option PeerConn.Lib) :=
  match exchange w .getHeadInfo with
  | .error e => .error e
  | .ok (.getHeadInfo h) => .ok h
  | .ok _ => .error (noteS .localRPC)

/-- koinos_rpc.go:150-156 and 208-214: the first detail with a known code decides. -/
def firstKnown (table : ErrorCode → Option Sentinel) : Details → Option Sentinel
  | [] => none
  | none :: ds => firstKnown table ds
  | some c :: ds =>
    match table c with
    | some s => some s
    | none => firstKnown table ds

/-- koinos_rpc.go:109-163, `ApplyBlock`. -/
def applyBlock (w : Wire ChainReq ChainResp) (b : RawBlock) : Option Err :=
  match exchange w (.submitBlock b) with
  | .error e => some e
  | .ok .submitBlock => none
  | .ok (.error ds) =>
    match firstKnown blockErrorMap ds with
    | some s => some (.sentinel s)
    | none => some (noteS .localRPC)
  | .ok _ => some (noteS .localRPC)

/-- koinos_rpc.go:166-221, `ApplyTransaction`. -/
def applyTransaction (w : Wire ChainReq ChainResp) (t : Tx) : Option Err :=
  match exchange w (.submitTransaction t true) with
  | .error e => some e
  | .ok .submitTransaction => none
  | .ok (.error ds) =>
    match firstKnown transactionErrorMap ds with
    | some s => some (.sentinel s)
    | none => some (noteS .localRPC)
  | .ok _ => some (noteS .localRPC)

/-- koinos_rpc.go:224-277, `GetBlocksByID`. -/
def getBlocksByID (w : Wire StoreReq StoreResp) (ids : List Bytes) : Except Err (List Item) :=
  match exchange w (.getBlocksById ids true false) with
  | .error e => .error e
  | .ok (.getBlocksById items) => .ok items
  | .ok _ => .error (noteS .localRPC)

/-- koinos_rpc.go:280-330, `GetBlocksByHeight`. -/
def getBlocksByHeight (w : Wire StoreReq StoreResp) (head : Bytes) (start : UInt64) (num : UInt32) :
    Except Err (List Item) :=
  match exchange w (.getBlocksByHeight head start num true false) with
  | .error e => .error e
  | .ok (.getBlocksByHeight items) => .ok items
  | .ok _ => .error (noteS .localRPC)

/-- koinos_rpc.go:333-377, `GetChainID`. -/
def getChainID (w : Wire ChainReq ChainResp) : Except Err Bytes :=
  match exchange w .getChainId with
  | .error e => .error e
  | .ok (.getChainId id) => .ok id
  | .ok _ => .error (noteS .localRPC)

/-- koinos_rpc.go:380-424, `GetForkHeads`. -/
def getForkHeads (w : Wire ChainReq ChainResp) : Except Err (List PeerConn.Lib × Option PeerConn.Lib) :=
  match exchange w .getForkHeads with
  | .error e => .error e
  | .ok (.getForkHeads hs l) => .ok (hs, l)
  | .ok _ => .error (noteS .localRPC)

/-- koinos_rpc.go:439-472, `IsConnectedToBlockStore`. -/
def isConnectedToBlockStore (w : Wire StoreReq StoreResp) : Except Err Unit :=
  match exchange w .reserved with
  | .error e => .error e
  | .ok _ => .ok ()

/-- koinos_rpc.go:476-509, `IsConnectedToChain`. -/
def isConnectedToChain (w : Wire ChainReq ChainResp) : Except Err Unit :=
  match exchange w .reserved with
  | .error e => .error e
  | .ok _ => .ok ()

end KoinosRPC
end KP2P
