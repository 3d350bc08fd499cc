import Verif.Base.Basic
/-!
# Model of internal/p2p/peer_connection.go

`handshake` and `requestSyncBlocks` are functions of the replies they get from the rest of the system. A reply is
`Except Err α`; the reply to the `i`-th repetition of a call in a loop may depend on `i`, so the replies are arbitrary.
Both functions also return the list of calls they make, in order. The session (`Start`, `connectionLoop`) is a labelled
transition system in `Verif/Model/Session.lean`.

Simplifications: deadlines of the individual calls are not modelled here (a call that runs into its deadline is a call that
replies with an error; `Verif/Model/Deadlines.lean` has the time-outs); log output is not modelled; pointers inside replies of the local RPC are non-nil, as
`koinos_rpc.go` returns them on success.
-/

namespace KP2P
namespace PeerConn

/-- internal/options/peer_connection_options.go:10-13, `Checkpoint`. -/
structure Checkpoint where
  height : UInt64
  id : Bytes
  deriving DecidableEq, Repr

/-- internal/options/peer_connection_options.go:27-37, `PeerConnectionOptions` without the durations. -/
structure Opts where
  checkpoints : List Checkpoint
  batch : UInt64
  delta : UInt64
  deriving DecidableEq, Repr

/-- peer_connection_options.go:40-52: the defaults of lines 15-24. -/
def Opts.default : Opts := { checkpoints := [], batch := 500, delta := 5 }

/-- The calls made to the rest of the system. -/
inductive Call where
  | version
  | localChainID
  | peerChainID
  | peerHead
  | peerAncestor (head : Bytes) (height : UInt64)
  | localBlocksByID (id : Bytes)
  | peerBlocks (head : Bytes) (start : UInt64) (num : UInt32)
  | applyBlock (b : RawBlock)
  deriving DecidableEq, Repr

/-- A semantic version `major.minor.patch` (the pre-release and build parts do not matter here). -/
structure Version where
  major : Nat
  minor : Nat
  patch : Nat
  deriving DecidableEq, Repr

/-- The replies a handshake gets. -/
structure HsEnv where
  version : Except Err Version
  localChainID : Except Err Bytes
  peerChainID : Except Err Bytes
  peerHead : Except Err (Bytes × UInt64)
  /-- the reply to the `i`-th checkpoint question -/
  ancestor : Nat → Bytes → UInt64 → Except Err Bytes

/-- What a handshake does: the calls made, the version remembered, the returned error. -/
structure HsResult where
  calls : List Call
  version : Option Version
  err : Option Err
  deriving DecidableEq, Repr

/-- peer_connection.go:76-87, the loop over the checkpoints, starting at the `i`-th. -/
def checkpointLoop (anc : Nat → Bytes → UInt64 → Except Err Bytes) (head : Bytes) :
    Nat → List Checkpoint → List Call × Option Err
  | _, [] => ([], none)
  | i, c :: cs =>
    match anc i head c.height with
    | .error _ => ([.peerAncestor head c.height], some (.sentinel .checkpointMismatch))
    | .ok b =>
      if b = c.id then
        let r := checkpointLoop anc head (i + 1) cs
        (.peerAncestor head c.height :: r.1, r.2)
      else ([.peerAncestor head c.height], some (.sentinel .checkpointMismatch))

/-- peer_connection.go:47-89, `handshake` after the version has been settled. -/
def handshakeRest (o : Opts) (e : HsEnv) : List Call × Option Err :=
  match e.localChainID with
  | .error err => ([.localChainID], some err)
  | .ok mine =>
    match e.peerChainID with
    | .error _ => ([.localChainID, .peerChainID], some (.sentinel .chainIDMismatch))
    | .ok theirs =>
      if mine = theirs then
        match e.peerHead with
        | .error err => ([.localChainID, .peerChainID, .peerHead], some err)
        | .ok (head, _) =>
          let r := checkpointLoop e.ancestor head 0 o.checkpoints
          ([.localChainID, .peerChainID, .peerHead] ++ r.1, r.2)
      else ([.localChainID, .peerChainID], some (.sentinel .chainIDMismatch))

/-- peer_connection.go:34-90, `handshake`. -/
def handshake (o : Opts) (e : HsEnv) : HsResult :=
  match e.version with
  | .ok v =>
    let r := handshakeRest o e
    ⟨.version :: r.1, some v, r.2⟩
  | .error err =>
    if err.is .protocolMissing then
      let r := handshakeRest o e
      ⟨.version :: r.1, some ⟨0, 0, 0⟩, r.2⟩
    else ⟨[.version], none, some err⟩

/-! ### One round of synchronisation -/

/-- A block topology (`koinos.BlockTopology`) of the last irreversible block. -/
structure Lib where
  id : Bytes
  height : UInt64
  deriving DecidableEq, Repr

/-- The replies one synchronisation round gets. `blocksByID` replies with the heights of the returned block items. -/
structure SyncEnv where
  lib : Lib
  peerHead : Except Err (Bytes × UInt64)
  blocksByID : Bytes → Except Err (List UInt64)
  ancestor : Bytes → UInt64 → Except Err Bytes
  blocks : Bytes → UInt64 → UInt32 → Except Err (List RawBlock)
  /-- the result of the `i`-th `ApplyBlock` (for a block with a header) -/
  apply : Nat → RawBlock → Option Err

/-- How a round ends. -/
inductive Outcome where
  | ok
  | err (e : Err)
  | panic
  deriving DecidableEq, Repr

/-- peer_connection.go:161-185, the loop that applies the received blocks, starting at the `i`-th. A block without
header makes `ApplyBlock` panic (applicator.go:100 through fork_watchdog.go:33). -/
def applyLoop (app : Nat → RawBlock → Option Err) : Nat → List RawBlock → List Call × Outcome
  | _, [] => ([], .ok)
  | i, b :: bs =>
    match b.header with
    | none => ([.applyBlock b], .panic)
    | some _ =>
      match app i b with
      | none => let r := applyLoop app (i + 1) bs; (.applyBlock b :: r.1, r.2)
      | some e =>
        if e.is .localRPCTimeout then ([.applyBlock b], .err e)
        else if e.is .forkBomb then ([.applyBlock b], .err e)
        else if e.is .blockIrreversibility then let r := applyLoop app (i + 1) bs; (.applyBlock b :: r.1, r.2)
        else ([.applyBlock b], .err (wrapS .blockApplication e))

/-- peer_connection.go:143-146: the number of blocks to ask for. -/
def toRequest (o : Opts) (lib head : UInt64) : UInt64 :=
  if head - lib > o.batch then o.batch else head - lib

/-- What a round does: the calls made, the outcome, and the value of `isSynced` afterwards. -/
structure SyncResult where
  calls : List Call
  out : Outcome
  synced : Bool
  deriving DecidableEq, Repr

/-- peer_connection.go:143-190: request blocks, apply them and update `isSynced`. -/
def fetch (o : Opts) (e : SyncEnv) (synced : Bool) (headID : Bytes) (head : UInt64) : SyncResult :=
  let n : UInt32 := (toRequest o e.lib.height head).toUInt32
  let c := Call.peerBlocks headID (e.lib.height + 1) n
  match e.blocks headID (e.lib.height + 1) n with
  | .error err => ⟨[c], .err err, synced⟩
  | .ok bs =>
    let r := applyLoop e.apply 0 bs
    match r.2 with
    | .ok =>
      -- line 188: blocks[len(blocks)-1].Header.Height
      match bs.getLast? with
      | none => ⟨c :: r.1, .panic, synced⟩
      | some b => match b.header with
        | none => ⟨c :: r.1, .panic, synced⟩
        | some h => ⟨c :: r.1, .ok, decide (head - h.height < o.delta)⟩
    | x => ⟨c :: r.1, x, synced⟩

/-- peer_connection.go:92-191, `requestSyncBlocks`, with the current value of `isSynced`. -/
def requestSyncBlocks (o : Opts) (e : SyncEnv) (synced : Bool) : SyncResult :=
  match e.peerHead with
  | .error err => ⟨[.peerHead], .err err, synced⟩
  | .ok (headID, head) =>
    if head ≤ e.lib.height then ⟨[.peerHead], .ok, true⟩
    else
      match e.blocksByID headID with
      | .error err => ⟨[.peerHead, .localBlocksByID headID], .err err, synced⟩
      | .ok items =>
        match items with
        | [h] =>
          if h ≠ 0 then ⟨[.peerHead, .localBlocksByID headID], .ok, true⟩
          else if e.lib.height > 0 then
            let calls : List Call := [.peerHead, .localBlocksByID headID, .peerAncestor headID e.lib.height]
            match e.ancestor headID e.lib.height with
            | .error err => ⟨calls, .err err, synced⟩
            | .ok a =>
              if a = e.lib.id then
                let r := fetch o e synced headID head
                { r with calls := calls ++ r.calls }
              else ⟨calls, .err (.sentinel .chainNotConnected), synced⟩
          else
            let r := fetch o e synced headID head
            { r with calls := [Call.peerHead, .localBlocksByID headID] ++ r.calls }
        | _ => ⟨[.peerHead, .localBlocksByID headID], .err (noteS .localRPC), synced⟩

end PeerConn

/-! ### Reading the protocol version (connection_manager.go:182-227) -/

namespace ProtoVersion

/-- What one look-up in the peer store yields: an error, a value that is not text, or a text. -/
inductive Seen where
  | missing (e : Err)
  | notText
  | text (s : Bytes)
  deriving DecidableEq, Repr

/-- connection_manager.go:182-194, `readProtocolVersion`. -/
def read : Seen → Except Err Bytes
  | .missing e => .error e
  | .notText => .error (.sentinel .protocolMismatch)
  | .text s => .ok s

/-- protocol_version.go:6, "koinos/p2p/" as bytes. -/
def pfx : Bytes := [107, 111, 105, 110, 111, 115, 47, 112, 50, 112, 47]

/-- `strings.Split(s, "/")`. -/
def split : Bytes → List Bytes
  | [] => [[]]
  | c :: cs =>
    if c = 47 then [] :: split cs
    else match split cs with
      | [] => [[c]]
      | p :: ps => (c :: p) :: ps

/-- connection_manager.go:196-227, `GetProtocolVersion`: `seen` are the values found by the successive look-ups before
the time-out. `parse` is `semver.NewVersion` (a library outside the repository). -/
def get (parse : Bytes → Option PeerConn.Version) : List Seen → Except Err PeerConn.Version
  | [] => .error (.sentinel .protocolMissing)
  | x :: xs =>
    match read x with
    | .error e => if e.is .protocolMismatch then .error e else get parse xs
    | .ok s =>
      if s.length > 0 then
        if pfx.isPrefixOf s then
          match parse ((split s).getLastD []) with
          | none => .error (.sentinel .protocolMismatch)
          | some v => .ok v
        else .error (.sentinel .protocolMismatch)
      else get parse xs

end ProtoVersion
end KP2P
