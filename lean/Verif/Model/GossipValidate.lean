import Verif.Base.Basic
/-!
# Model of the message validators of internal/p2p/gossip.go

The validators are functions of the message, the decoder (`proto.Unmarshal`), the node's own id, the last irreversible
height and the answer of the applicator. Peer ids are byte strings. Simplifications: log output is not modelled; the
report to the error handler (made by a separate goroutine, lines 317-330 and 407-412) is the second result; it can be lost
when the context ends first, which is not modelled; `author` stands for lines 322-323.
-/

namespace KP2P
namespace GossipValidate

/-- `pubsub.Message`: `Data`, `GetFrom()`, `ReceivedFrom` and `Key`. -/
structure Msg where
  data : Bytes
  sender : Bytes
  receivedFrom : Bytes
  key : Bytes
  deriving DecidableEq, Repr

/-- What validating a message needs from the rest of the node. `α` is the type of the decoded contents. -/
structure Env (α : Type) where
  me : Bytes
  decode : Bytes → Except Err α
  /-- the height of the last irreversible block -/
  lib : UInt64
  /-- the answer of the applicator -/
  apply : α → Option Err
  /-- gossip.go:322-323, the peer id belonging to a public key -/
  author : Bytes → Bytes

/-- What validating a message does. -/
structure Result (α : Type) where
  /-- what was handed to the applicator -/
  applied : List α
  accept : Bool
  /-- the peer error sent to the error handler: peer and error -/
  report : Option (Bytes × Err)
  deriving DecidableEq, Repr

/-- gossip.go:338-377, `applyBlock`: the blocks handed to the applicator, and the error. -/
def applyBlock (e : Env RawBlock) (m : Msg) : List RawBlock × Option Err :=
  match e.decode m.data with
  | .error x => ([], some (wrapS .deserialization x))
  | .ok b =>
    if m.sender = e.me then ([], none)
    else match b.id with
    | none => ([], some (noteS .deserialization))
    | some _ => match b.header with
      | none => ([], some (noteS .deserialization))
      | some h => match h.previous with
        | none => ([], some (noteS .deserialization))
        | some _ =>
          if h.height < e.lib then ([], some (.sentinel .blockIrreversibility))
          else match e.apply b with
            | some x => ([b], some (wrapS .blockApplication x))
            | none => ([b], none)

/-- gossip.go:310-336, `validateBlock`. -/
def validateBlock (e : Env RawBlock) (m : Msg) : Result RawBlock :=
  match applyBlock e m with
  | (bs, none) => ⟨bs, true, none⟩
  | (bs, some x) =>
    if x.is .blockIrreversibility then ⟨bs, false, none⟩
    else ⟨bs, false, some (if x.is .forkBomb then e.author m.key else m.receivedFrom, x)⟩

/-- gossip.go:418-447, `applyTransaction`. -/
def applyTransaction (e : Env Tx) (m : Msg) : List Tx × Option Err :=
  match e.decode m.data with
  | .error x => ([], some (wrapS .deserialization x))
  | .ok t =>
    if m.sender = e.me then ([], none)
    else match t.id with
    | none => ([], some (noteS .deserialization))
    | some _ =>
      match e.apply t with
      | some x =>
        if x.is .invalidNonce then ([t], some (wrapS .invalidNonce x))
        else ([t], some (wrapS .transactionApplication x))
      | none => ([t], none)

/-- gossip.go:403-416, `validateTransaction`. -/
def validateTransaction (e : Env Tx) (m : Msg) : Result Tx :=
  match applyTransaction e m with
  | (ts, none) => ⟨ts, true, none⟩
  | (ts, some x) => ⟨ts, false, some (m.receivedFrom, x)⟩

end GossipValidate
end KP2P
