import Verif.Model.PeerConn
import Verif.Model.ChainLink
/-!
# A session of synchronisation at work with the applicator and the chain

`internal/p2p/peer_connection.go:92-220`: the rounds of `Model/PeerConn.lean`, step by step, together with the applicator and the
chain service of `Model/ChainLink.lean`. The questions of a round (lines 93-158) are one step, with any answers; after it each block
is handed over on its own, the session waits for the end of the call, and goes on or leaves the round (lines 161-185). Everything else
that happens (the applicator, its workers, the chain, other callers of `ApplyBlock`: other sessions and gossip) goes on in between.

Simplifications: sending an error and sleeping between rounds (lines 199-217) take no steps of their own, since a round may begin at any
time (`Model/Session.lean` and `Model/Pacing.lean` have them); `isSynced` only chooses the time of sleeping and is left out; the session
is not cancelled (`Model/SessionEnd.lean`).
-/

namespace KP2P
namespace SyncRun
open PeerConn

/-- Where the session is. -/
inductive Phase where
  /-- between rounds (lines 198-217) -/
  | idle
  /-- at the head of the loop of line 161, with these blocks left -/
  | handing (todo : List RawBlock)
  /-- in `ApplyBlock` (line 165), as call `r` for block `b` -/
  | waiting (r : Nat) (b : RawBlock) (todo : List RawBlock)
  /-- a panic: the process is gone -/
  | crashed
  deriving DecidableEq

/-- The session, the rest of the node and, to compare with `requestSyncBlocks`, the current or last round: its answers and the results of
the blocks handed over, oldest first. -/
structure State where
  link : Link.State
  phase : Phase
  env : Option SyncEnv
  results : List (RawBlock × Option Err)

inductive Label where
  /-- a round begins; the questions are answered (lines 93-158) -/
  | ask (e : SyncEnv)
  /-- the next block is handed over (line 165) -/
  | hand
  /-- the call has returned (lines 165-184) -/
  | back (e : Option Err)
  /-- no block is left (lines 187-190) -/
  | finish
  /-- any step of the rest of the node -/
  | sys (l : Link.Label)

/-- The round as it would go if all blocks were applied (peer_connection.go:92-191). -/
def allWell (o : Opts) (e : SyncEnv) : SyncResult := requestSyncBlocks o { e with apply := fun _ _ => none } false

/-- The blocks a round has to hand over (peer_connection.go:92-165). -/
def plan (o : Opts) (e : SyncEnv) : List RawBlock :=
  (allWell o e).calls.filterMap fun | .applyBlock b => some b | _ => none

/-- peer_connection.go:167-184: whether the loop goes on after this result. -/
def goesOn : Option Err → Bool
  | none => true
  | some e => !e.is .localRPCTimeout && !e.is .forkBomb && e.is .blockIrreversibility

/-- The call is over, with this result (applicator.go:101-103, 109-115). -/
def over (log : List Obs) (r : Nat) (e : Option Err) : Bool := decide (Obs.returned r e ∈ log ∨ Obs.refused r e ∈ log)

/-- One step; `none` if the label is not enabled. -/
def step (o : Opts) (ao : AppOpts) (s : State) : Label → Option State
  | .ask e =>
    match s.phase with
    | .idle =>
      match plan o e with
      -- a question failed, or there is nothing to do, or the peer sent no blocks (the panic of line 188)
      | [] => some { s with phase := if (allWell o e).out = .panic then .crashed else .idle, env := some e, results := [] }
      | bs => some { s with phase := .handing bs, env := some e, results := [] }
    | _ => none
  | .hand =>
    match s.phase with
    | .handing (b :: todo) =>
      match b.toBlk with
      -- applicator.go:100 through fork_watchdog.go:33
      | none => some { s with phase := .crashed }
      | some x =>
        match Link.step ao s.link (.act (.applyBlock x)) with
        | some t => some { s with link := t, phase := .waiting s.link.app.nextReq b todo }
        | none => none
    | _ => none
  | .back e =>
    match s.phase with
    | .waiting r b todo =>
      if over s.link.app.log r e then
        some { s with phase := if goesOn e then .handing todo else .idle, results := s.results ++ [(b, e)] }
      else none
    | _ => none
  | .finish =>
    match s.phase with
    | .handing [] => some { s with phase := .idle }
    | _ => none
  | .sys l => (Link.step ao s.link l).map fun t => { s with link := t }

/-- A session at the beginning of `connectionLoop`, the rest of the node in state `s` (peer_connection.go:194-195). -/
def init (s : Link.State) : State := { link := s, phase := .idle, env := none, results := [] }

end SyncRun
end KP2P
