import Verif.Model.NetSync
import Verif.Spec.SyncRun
import Mathlib.Logic.Relation
/-!
# Vocabulary for C147: synchronisation in a network
-/

namespace KP2P
namespace Spec
namespace NetSync
open KP2P.PeerConn KP2P.PeerRPC KP2P.Peering KP2P.NetSync KP2P.Spec.CatchUp KP2P.Spec.SyncRun

/-- Nothing happens at the node. -/
def pause : KP2P.SyncRun.Label := .sys (.act (.tick 0))

/-- What the step is for the session of `w` with `v` and the rest of node `w`: blocks handed over by other sessions of `w` are calls from
elsewhere, other steps of theirs and steps of other nodes are pauses. -/
def here (s : State) (w v : Bytes) : Label → KP2P.SyncRun.Label
  | .sys u l => if u = w then .sys l else pause
  | .sess u x l =>
    if u = w then
      if x = v then l else
        match l, (s.sess w x).phase with
        | .hand, .handing (b :: _) => match b.toBlk with
          | some y => .sys (.act (.applyBlock y))
          | none => pause
        | _, _ => pause
    else pause

/-- The chain of a node in state `s` has the blocks of `c` up to height `h` and not the next one (or `h` is `M`). -/
def Top (s : Link.State) (c : Spec.Peering.Chain) (M h : Nat) : Prop :=
  h ≤ M ∧ HasUpto s c h ∧ ∀ k, k ≤ M → HasUpto s c k → k ≤ h

/-- The questions of a round of a node whose chain is in state `mine` are answered by an honest peer whose chain is in state `theirs` and is, as
far as it goes, the chain `c`; and the round begins as in `Begins`. -/
def Served (codec : Codec) (remote : Err → Nat) (net : Bytes) (c : Spec.Peering.Chain) (K M : Nat) (mine theirs : Link.State) (e : SyncEnv) : Prop :=
  ∃ (r : Round) (l : Local) (head : Lib), e = syncEnv codec remote r.lib r.known r.apply l ∧ Spec.Peering.Keeps l net head c ∧
    Top theirs c M head.height.toNat ∧ head.id = c.id head.height.toNat ∧ Begins c head K mine r

/-- The setting: options of nodes, the wire, the chain `c`, bounds on the lag of irreversibility and on heights. -/
structure Setting where
  o : Opts
  ao : AppOpts
  codec : Codec
  remote : Err → Nat
  net : Bytes
  c : Spec.Peering.Chain
  K : Nat
  M : Nat

/-- An infinite execution of the network. -/
def Exec (p : Setting) (σ : Nat → State) (ev : Nat → Label) : Prop := ∀ n, step p.o p.ao (σ n) (ev n) = some (σ (n + 1))

/-- Nothing is neglected for ever at node `w` and in its session with `v`. -/
structure FairAt (p : Setting) (σ : Nat → State) (ev : Nat → Label) (w v : Bytes) : Prop where
  /-- the session goes on when it can -/
  session : ∀ n, (∀ m, n ≤ m → ∃ x, Own x ∧ (step p.o p.ao (σ m) (.sess w v x)).isSome = true) → ∃ m, n ≤ m ∧ ∃ x, Own x ∧ ev m = .sess w v x
  /-- time goes on; in particular the process does not end -/
  time : ∀ (T : Int) (n : Nat), ∃ m, n ≤ m ∧ T ≤ ((σ m).link w).app.now
  announced : ∀ n, (∀ m, n ≤ m → ∃ i, (step p.o p.ao (σ m) (.sys w (.deliver i))).isSome = true) → ∃ m, n ≤ m ∧ ∃ i, ev m = .sys w (.deliver i)
  rest : ∀ (k : App.Kind) (n : Nat), (∀ m, n ≤ m → ∃ x, k.has x ∧ (step p.o p.ao (σ m) (.sys w (.act x))).isSome = true) →
    ∃ m, n ≤ m ∧ ∃ x, ev m = .sys w (.act x) ∧ k.has x
  /-- while the session waits for one and the same call, the traffic from elsewhere ends at some time: calls of other sessions, other calls, fork
  heads, new blocks from elsewhere and answers with the block-state error -/
  calm : ∀ n, (∀ m, n ≤ m → InCall (view (σ m) w v)) → ∃ N, n ≤ N ∧ (∀ m, N ≤ m → ∀ l, ev m = .sys w l → Link.Quiet l) ∧
    (∀ m, N ≤ m → ∀ u, u ≠ v → ev m ≠ .sess w u .hand) ∧ ∃ ids : List Bytes, ∀ m id prev h, N ≤ m → ev m = .sys w (.accept id prev h) → id ∈ ids

/-- Node `w` follows peer `v`: its session with `v` is between rounds at first, and always after some time there is a round whose questions are
answered from the chain `v` has at this time. What is assumed of node `w` is as for one session in C132. -/
structure Follows (p : Setting) (σ : Nat → State) (ev : Nat → Label) (v w : Bytes) : Prop where
  idle : ((σ 0).sess w v).phase = .idle
  rounds : ∀ n, ((σ n).sess w v).phase = .idle →
    ∃ m, n ≤ m ∧ ∃ e, ev m = .sess w v (.ask e) ∧ Served p.codec p.remote p.net p.c p.K p.M ((σ m).link w) ((σ m).link v) e
  fair : FairAt p σ ev w v
  reach : Link.Reach p.ao (Link.Fit (Upto p.c p.M) p.ao) ((σ 0).link w)
  truthful : ∀ n, Link.Truthful (Upto p.c p.M) ((σ n).link w)
  fit : ∀ n l, here (σ n) w v (ev n) = .sys l → Link.Fit (Upto p.c p.M) p.ao ((σ n).link w) l
  clean : ∀ n, Link.Clean (Upto p.c p.M) ((σ n).link w).app.log
  root : ∀ x, (p.c.blk 1).toBlk = some x → Link.Has ((σ 0).link w) x.previous
  awake : ∀ n, ((σ n).link w).app.hung = false
  room : ∀ n, ((σ n).link w).app.highest.toNat + 1 < 2 ^ 64
  patient : ∀ (n r : Nat) (b : RawBlock) (todo : List RawBlock), ((σ n).sess w v).phase = .waiting r b todo →
    Obs.returned r (some (.sentinel .blockApplicationTimeout)) ∉ ((σ n).link w).app.log

/-- There is a chain of nodes from `v` to `w`, each following the one before. -/
abbrev Way (p : Setting) (σ : Nat → State) (ev : Nat → Label) : Bytes → Bytes → Prop := Relation.ReflTransGen (Follows p σ ev)

end NetSync
end Spec
end KP2P
