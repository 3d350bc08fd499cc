import Verif.Model.PeerConn
/-!
# Model of internal/node/node.go

The status RPC, the identity of gossip messages, the derivation of the node key, the handlers of local broadcasts and the
two copies of the irreversible height. Protobuf decoding, SHA-256, the key generator and libp2p are parameters.
-/

namespace KP2P
namespace Node

/-! ### The status RPC -/

/-- `rpcp2p.P2PRequest.Request`, non-nil: the status request or any other variant. -/
inductive Req where
  | getGossipStatus
  | other (n : Nat)
  deriving DecidableEq, Repr

/-- `rpcp2p.P2PResponse`; error texts are not modelled. -/
inductive Resp where
  | gossipStatus (enabled : Bool)
  | error
  deriving DecidableEq, Repr

/-- node.go:304-328, `handleRequest`; `none` is a nil `req.Request`. -/
def handleRequest (enabled : Bool) : Option Req → Resp
  | some .getGossipStatus => .gossipStatus enabled
  | some (.other _) => .error
  | none => .error

/-- node.go:283-302, `handleRPC`, up to the encoding of the response in line 299. -/
def handleRPC (decode : Bytes → Except Err (Option Req)) (enabled : Bool) (data : Bytes) : Resp :=
  match decode data with
  | .error _ => .error
  | .ok r => handleRequest enabled r

/-! ### Message ids -/

/-- The 64 characters of `base64.StdEncoding`: A-Z, a-z, 0-9, +, /. -/
def b64Char (n : Nat) : UInt8 :=
  if n < 26 then UInt8.ofNat (65 + n)
  else if n < 52 then UInt8.ofNat (97 + (n - 26))
  else if n < 62 then UInt8.ofNat (48 + (n - 52))
  else if n = 62 then 43 else 47

/-- `base64.RawStdEncoding.EncodeToString` (Go standard library): groups of three bytes give four characters, a rest of
one or two bytes gives two or three characters, no padding. -/
def base64 : Bytes → Bytes
  | a :: b :: c :: rest =>
    b64Char (a.toNat / 4) :: b64Char (a.toNat % 4 * 16 + b.toNat / 16) ::
      b64Char (b.toNat % 16 * 4 + c.toNat / 64) :: b64Char (c.toNat % 64) :: base64 rest
  | [a, b] => [b64Char (a.toNat / 4), b64Char (a.toNat % 4 * 16 + b.toNat / 16), b64Char (b.toNat % 16 * 4)]
  | [a] => [b64Char (a.toNat / 4), b64Char (a.toNat % 4 * 16)]
  | [] => []

/-- `pb.Message` of pubsub. -/
structure GMsg where
  topic : Bytes
  data : Bytes
  sender : Bytes
  seqno : Bytes
  signature : Bytes
  deriving DecidableEq, Repr

/-- gossip.go:28-29, "koinos.blocks". -/
def blockTopic : Bytes := [107, 111, 105, 110, 111, 115, 46, 98, 108, 111, 99, 107, 115]

/-- gossip.go:31-32, "koinos.transactions". -/
def transactionTopic : Bytes :=
  [107, 111, 105, 110, 111, 115, 46, 116, 114, 97, 110, 115, 97, 99, 116, 105, 111, 110, 115]

/-- node.go:476-490, `generateMessageID`; `sha` is SHA-256 and `dflt` is `pubsub.DefaultMsgIdFn`. A message without topic
(nil pointer in line 478) is not represented: pubsub drops messages of topics that were not joined before it asks for
their id. -/
def messageID (sha : Bytes → Bytes) (dflt : GMsg → Bytes) (m : GMsg) : Bytes :=
  if m.topic = blockTopic ∨ m.topic = transactionTopic then base64 (sha m.data) else dflt m

/-! ### The node key -/

/-- `binary.BigEndian.Uint64` of the first eight bytes. -/
def bigEndian (bs : Bytes) : Nat := bs.foldl (fun n b => n * 256 + b.toNat) 0

/-- node.go:439-446, `seedStringToInt64`. -/
def seedToInt64 (sha : Bytes → Bytes) (seed : Bytes) : Int64 := (UInt64.ofNat (bigEndian ((sha seed).take 8))).toInt64

/-- `rand.NewSource(seed)` (Go standard library, math/rand/rng.go, `Seed`): the seed is reduced modulo 2^31-1, and 0 is
replaced by 89482311, before anything else is done with it. -/
def sourceSeed (seed : Int64) : Int :=
  let r := seed.toInt.tmod 2147483647
  let r := if r < 0 then r + 2147483647 else r
  if r = 0 then 89482311 else r

/-- node.go:457-474, `generatePrivateKey`: `fresh` is the generated seed for an empty seed string; `keygen` is
`generateECDSAKeyPair` (lines 448-455) applied to the random source with the given reduced seed. -/
def privateKey {Key : Type} (sha : Bytes → Bytes) (keygen : Int → Except Err Key) (fresh seed : Bytes) : Except Err Key :=
  keygen (sourceSeed (seedToInt64 sha (if seed = [] then fresh else seed)))

/-! ### Local broadcasts -/

/-- `broadcast.BlockAccepted`. -/
structure BlockAccepted where
  block : Option RawBlock
  head : Bool
  deriving DecidableEq, Repr

/-- `broadcast.ForkHeads`. -/
structure ForkHeads where
  heads : List PeerConn.Lib
  lib : Option PeerConn.Lib
  deriving DecidableEq, Repr

/-- What handling a broadcast does, in the end. -/
inductive Effect where
  /-- the gossip toggle learns the time of the head block -/
  | headTime (t : UInt64)
  /-- the applicator learns of an accepted block -/
  | accepted (b : RawBlock) (height : UInt64)
  /-- the block is handed to gossip -/
  | publishBlock (b : RawBlock)
  /-- the transaction (`none` if it is missing) is handed to gossip -/
  | publishTransaction (t : Option Tx)
  /-- the applicator learns of new fork heads -/
  | forks (heads : List PeerConn.Lib) (lib : UInt64)
  /-- the node's own copy of the irreversible block -/
  | storeLib (l : PeerConn.Lib)
  deriving DecidableEq, Repr

/-- `none` is a nil-pointer panic, in the handler or in the goroutine it hands the broadcast to. -/
abbrev Effects := Option (List Effect)

/-- node.go:223-248, `handleBlockBroadcast`, with applicator.go:359-368: a missing block panics in line 360, a missing
header in line 363. -/
def handleBlockBroadcast (decode : Bytes → Except Err BlockAccepted) (data : Bytes) : Effects :=
  match decode data with
  | .error _ => some []
  | .ok a => match a.block with
    | none => none
    | some b => match b.header with
      | none => none
      | some h =>
        some ((if a.head then [.headTime h.timestamp] else []) ++ [.accepted b h.height, .publishBlock b])

/-- node.go:250-265, `handleTransactionBroadcast`, with gossip.go:248-265. A missing transaction is handed to gossip as
a nil pointer. If gossip is on, it is encoded and, for the log, put into words (gossip.go:254-259) by functions of
libraries that are not in the repository: `tolerant` says whether they put up with it. -/
def handleTransactionBroadcast (decode : Bytes → Except Err (Option Tx)) (enabled tolerant : Bool) (data : Bytes) :
    Effects :=
  match decode data with
  | .error _ => some []
  | .ok (some t) => some [.publishTransaction (some t)]
  | .ok none => if enabled && !tolerant then none else some [.publishTransaction none]

/-- node.go:267-281, `handleForkUpdate`, with applicator.go:333-337: a missing irreversible block panics in line 335. -/
def handleForkUpdate (decode : Bytes → Except Err ForkHeads) (data : Bytes) : Effects :=
  match decode data with
  | .error _ => some []
  | .ok f => match f.lib with
    | none => none
    | some l => some [.storeLib l, .forks f.heads l.height]

end Node

/-! ### The two copies of the irreversible height -/

namespace LibSync

/-- node.go:53 `libValue` and applicator.go `lib`, with the updates that goroutines (node.go:276-278) still have to hand
over. `ghost` is the list of updates received, oldest first. -/
structure State where
  node : UInt64
  applicator : UInt64
  pending : List UInt64
  ghost : List UInt64
  deriving DecidableEq, Repr

/-- `node` is what node.go:414 stored, `app` what applicator.go:71-80 read. -/
def init (node app : UInt64) : State := ⟨node, app, [], []⟩

inductive Label where
  /-- a fork update with this irreversible height arrives (node.go:267-281) -/
  | update (h : UInt64)
  /-- the goroutine of the `i`-th pending update hands it over and the applicator handles it (applicator.go:335) -/
  | deliver (i : Nat)
  deriving DecidableEq, Repr

def step (s : State) : Label → Option State
  | .update h => some { s with node := h, pending := s.pending ++ [h], ghost := s.ghost ++ [h] }
  | .deliver i => match s.pending[i]? with
    | some h => some { s with applicator := h, pending := s.pending.eraseIdx i }
    | none => none

def run (s : State) : List Label → Option State
  | [] => some s
  | l :: ls => match step s l with
    | some s' => run s' ls
    | none => none

end LibSync
end KP2P
