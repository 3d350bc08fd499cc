import Verif.Model.SyncRun
/-!
# Synchronisation in a network

Many nodes, each with its applicator and chain (`Model/ChainLink.lean`) and with a session for each of its peers. A session is that of
`Model/SyncRun.lean` (`internal/p2p/peer_connection.go:92-220`); all sessions of a node hand their blocks to its one applicator
(`internal/p2p/connection_manager.go:228-255`: each `PeerConnection` gets the same `applicator`; `internal/node/node.go:182-211`).

Simplifications: those of `Model/SyncRun.lean`. A session is there from the beginning and stays (connections that come and go are in
`Model/Life.lean`); one that is never asked to do anything is idle for ever. Which answers the peer gives is not part of the step (`ask`); the
vocabulary of `Spec/NetSync.lean` says when they are those of the peer's chain.
-/

namespace KP2P
namespace NetSync
open PeerConn

/-- A session, without the rest of its node (`internal/p2p/peer_connection.go:20-32, 92-220`). -/
structure Sess where
  phase : SyncRun.Phase
  env : Option SyncEnv
  results : List (RawBlock × Option Err)

/-- The network: the applicator and chain of each node, the session of each node with each peer, and which processes are gone. -/
structure State where
  link : Bytes → Link.State
  /-- `sess w v`: the session of node `w` with peer `v` -/
  sess : Bytes → Bytes → Sess
  dead : Bytes → Bool

inductive Label where
  /-- a step of the applicator or the chain of node `w`, or a call from gossip there -/
  | sys (w : Bytes) (l : Link.Label)
  /-- a step of the session of `w` with `v` -/
  | sess (w v : Bytes) (l : SyncRun.Label)

/-- The session of `w` with `v`, together with the rest of node `w`, as in `Model/SyncRun.lean`. -/
def view (s : State) (w v : Bytes) : SyncRun.State :=
  { link := s.link w, phase := (s.sess w v).phase, env := (s.sess w v).env, results := (s.sess w v).results }

/-- One step; `none` if the label is not enabled. A panic in a session is the end of the process (no `recover` in
`internal/p2p/peer_connection.go:92-220`). -/
def step (o : Opts) (ao : AppOpts) (s : State) : Label → Option State
  | .sys w l =>
    if s.dead w then none else (Link.step ao (s.link w) l).map fun x => { s with link := Function.update s.link w x }
  | .sess w v l =>
    if s.dead w then none else
    match l with
    | .sys _ => none
    | l => (SyncRun.step o ao (view s w v) l).map fun x =>
      { link := Function.update s.link w x.link
        sess := Function.update s.sess w (Function.update (s.sess w) v { phase := x.phase, env := x.env, results := x.results })
        dead := if x.phase = .crashed then Function.update s.dead w true else s.dead }

end NetSync
end KP2P
