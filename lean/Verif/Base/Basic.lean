import Verif.Base.GoMap
/-!
# Basic data: byte strings, errors, blocks, transactions
-/

namespace KP2P

/-- A Go byte string (`[]byte` converted by `string(..)`, multihash, ...). -/
abbrev Bytes := List UInt8

/-- Wall-clock / monotonic instants and durations, in nanoseconds (plain notation for `Int`). -/
notation "Time" => Int

/-- One second in nanoseconds (`time.Second`). -/
def second : Int := 1000000000

/-- internal/p2perrors/errors.go:7-73, the sentinel errors, in file order. -/
inductive Sentinel where
  | deserialization | serialization | blockIrreversibility | blockApplication
  | transactionApplication | invalidNonce | chainIDMismatch | chainNotConnected
  | checkpointMismatch | localRPC | peerRPC | localRPCTimeout | peerRPCTimeout
  | processRequestTimeout | unknownPreviousBlock | blockApplicationTimeout
  | maxPendingBlocks | forkBomb | maxHeight | blockState | protocolMismatch | protocolMissing
  deriving DecidableEq, Repr

/-- A Go `error` value (non-nil).
`sentinel` is one of the p2perrors variables; `ctxDeadline`/`ctxCanceled` the two context errors;
`other n` any other error value, distinguished by a number; `wrap e shown` is
`fmt.Errorf("%w … %s", e, shown)`: only `e` is visible to `errors.Is`, `shown` was only rendered as text;
`note e` is `fmt.Errorf("%w … text", e)` where the text does not come from another error. -/
inductive Err where
  | sentinel (s : Sentinel)
  | ctxDeadline
  | ctxCanceled
  | other (n : Nat)
  | wrap (inner : Err) (shown : Err)
  | note (inner : Err)
  deriving DecidableEq, Repr

/-- `errors.Is(err, p2perrors.X)`: walk the chain of `%w`-wrapped errors (Go standard library `errors.Is`). -/
def Err.is : Err → Sentinel → Bool
  | .sentinel s, t => decide (s = t)
  | .wrap e _, t => e.is t
  | .note e, t => e.is t
  | _, _ => false

/-- `errors.Is(err, context.DeadlineExceeded)`. -/
def Err.isDeadline : Err → Bool
  | .ctxDeadline => true
  | .wrap e _ => e.isDeadline
  | .note e => e.isDeadline
  | _ => false

/-- `errors.Is(err, X)` on a possibly nil error: false on nil. -/
def errIs (e : Option Err) (t : Sentinel) : Bool :=
  match e with
  | none => false
  | some e => e.is t

/-- `fmt.Errorf("%w … %s", sentinel, shown)`. -/
def wrapS (s : Sentinel) (shown : Err) : Err := .wrap (.sentinel s) shown

/-- `fmt.Errorf("%w … text", sentinel)`. -/
def noteS (s : Sentinel) : Err := .note (.sentinel s)

@[simp] theorem Err.is_sentinel (s t : Sentinel) : (Err.sentinel s).is t = decide (s = t) := rfl
@[simp] theorem Err.is_wrapS (s t : Sentinel) (e : Err) : (wrapS s e).is t = decide (s = t) := rfl
@[simp] theorem Err.is_noteS (s t : Sentinel) : (noteS s).is t = decide (s = t) := rfl

/-- `protocol.BlockHeader` (generated protobuf code, fields used by koinos-p2p).
Byte fields are `Option` because gossip.go:350-358 distinguishes nil from empty. -/
structure Header where
  previous : Option Bytes
  height : UInt64
  timestamp : UInt64
  signer : Option Bytes
  deriving DecidableEq, Repr

/-- `protocol.Transaction`: only the id is inspected (transaction_cache.go:68, gossip.go:431);
`rest` stands for all other contents. -/
structure Tx where
  id : Option Bytes
  rest : Bytes := []
  deriving DecidableEq, Repr

/-- `protocol.Block` as received from the network: any field may be missing.
`rest` stands for the signature and everything else. -/
structure RawBlock where
  id : Option Bytes
  header : Option Header
  transactions : List Tx := []
  rest : Bytes := []
  deriving DecidableEq, Repr

/-- `string(b)` for a possibly nil byte slice. -/
def str (b : Option Bytes) : Bytes := b.getD []

/-- A block whose header pointer is non-nil, with byte slices converted by `string(..)`. -/
structure Blk where
  id : Bytes
  previous : Bytes
  height : UInt64
  timestamp : UInt64
  signer : Bytes
  rest : Bytes := []
  deriving DecidableEq, Repr

/-- View of a raw block as used by the applicator; `none` if `block.Header` is nil (every field access
through it would be a nil-pointer panic). -/
def RawBlock.toBlk (b : RawBlock) : Option Blk :=
  b.header.map fun h =>
    { id := str b.id, previous := str h.previous, height := h.height, timestamp := h.timestamp,
      signer := str h.signer, rest := b.rest }

end KP2P
