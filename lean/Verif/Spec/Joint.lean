import Verif.Model.Joint
import Verif.Spec.Enforce
import Verif.Spec.Peering
import Verif.Spec.Session
import Verif.Model.GossipValidate
/-!
# What peers pay for
-/

namespace KP2P
namespace Spec
namespace Joint
open KP2P.Enforce KP2P.PeerConn

/-- Everybody who was let in from a host of peer `p` (one it was let in or refused from) is `p` itself. -/
def Sole (log : List Obs) (p : Bytes) : Prop :=
  ∀ c, (Admitted log c ∨ ∃ t, Obs.refused c t ∈ log) → c.peer = p → ∀ c', Admitted log c' → c'.addr.ip = c.addr.ip → c'.peer = p

/-- The sum of the weights of the errors that were reported of a peer. -/
def reportedWeight (w : Err → Nat) (p : Bytes) (log : List Obs) : Nat :=
  (log.map fun
    | .reported c e => if c.peer = p then w e else 0
    | _ => 0).sum

/-- The sum of the costs of the exchanges with a peer and of the weights of what gossip reports of it. -/
def bill (w : Err → Nat) (cost : Session.Label → Nat) (p : Bytes) (ls : List KP2P.Joint.Label) : Nat :=
  (ls.map fun
    | .session q _ l => if q = p then cost l else 0
    | .gossip c e => if c.peer = p then w e else 0
    | _ => 0).sum

/-- `n` is at least the weight of the error with which this exchange can end. -/
def Costs (w : Err → Nat) (o : Opts) (l : Session.Label) (n : Nat) : Prop :=
  match l with
  | .handshake e => ∀ x, (handshake o e).err = some x → w x ≤ n
  | .round e => ∀ synced x, (requestSyncBlocks o e synced).out = .err x → w x ≤ n
  | _ => True

/-- The errors that mean that the peer is of another kind, on another chain, or attacks. -/
def grave (e : Err) : Bool :=
  e.is .forkBomb || e.is .chainIDMismatch || e.is .chainNotConnected || e.is .checkpointMismatch || e.is .protocolMismatch

/-- The answer is the one the peer or our node would give, or none comes (in time). -/
def OrFails {α : Type} (r honest : Except Err α) : Prop := r = honest ∨ ∃ x, r = .error x ∧ grave x = false

/-- A handshake with an honest peer, in which our own node may fail to answer, and the peer may fail to answer the question for its head. -/
def HsInterrupted (o : Opts) (net : Bytes) (e : HsEnv) : Prop :=
  ∃ h, Peering.HonestHandshake o net h ∧ e.version = h.version ∧ OrFails e.localChainID h.localChainID ∧ e.peerChainID = h.peerChainID ∧
    OrFails e.peerHead h.peerHead ∧ e.ancestor = h.ancestor

/-- A round with an honest peer, in which any question to the peer and to our own node may remain without answer, and applying a block
may fail for reasons of our own. -/
def RoundInterrupted (net : Bytes) (e : SyncEnv) : Prop :=
  ∃ h, Peering.HonestRound net h ∧ e.lib = h.lib ∧ OrFails e.peerHead h.peerHead ∧ (∀ id, OrFails (e.blocksByID id) (h.blocksByID id)) ∧
    (∀ a n, OrFails (e.ancestor a n) (h.ancestor a n)) ∧ (∀ a n m, OrFails (e.blocks a n m) (h.blocks a n m)) ∧
    ∀ j b, PeerConn.Passes (e.apply j b) ∨ ∃ x, e.apply j b = some x ∧ grave x = false

/-- An exchange of one of these kinds. -/
def Interrupted (o : Opts) (net : Bytes) : Session.Label → Prop
  | .handshake e => HsInterrupted o net e
  | .round e => RoundInterrupted net e
  | _ => True

/-- How many exchanges with peer `p` are of kind `bad`. -/
def occurrences (bad : Session.Label → Bool) (p : Bytes) (ls : List KP2P.Joint.Label) : Nat :=
  ls.countP fun
    | .session q _ l => decide (q = p) && bad l
    | _ => false

/-- How often the sessions over connection `c` sent error `e` to the error handler. -/
def sent (c : Conn) (e : Err) (sess : List (Conn × Session.State)) : Nat :=
  (sess.map fun y => if y.1 = c then (Spec.Session.reports y.2.log).count e else 0).sum

/-- How many handshakes and rounds of the sessions over connection `c` ended with error `e`. -/
def failed (c : Conn) (e : Err) (sess : List (Conn × Session.State)) : Nat :=
  (sess.map fun y => if y.1 = c then (Spec.Session.failures y.2.log).count e else 0).sum

/-- How often gossip reported error `e` of a message received over connection `c`. -/
def gossiped (c : Conn) (e : Err) (ls : List KP2P.Joint.Label) : Nat :=
  ls.countP fun
    | .gossip c' x => decide (c' = c ∧ x = e)
    | _ => false

/-- The sessions with peer `p` that have not been told to end. -/
def running (p : Bytes) (sess : List (Conn × Session.State)) : List (Conn × Session.State) :=
  sess.filter fun y => decide (y.1.peer = p) && !y.2.cancelled

/-- Validating some block or transaction that was received over connection `c` makes this node report error `x` of the peer at its other end. -/
def Relayed (c : Conn) (x : Err) : Prop :=
  (∃ env m, m.receivedFrom = c.peer ∧ (GossipValidate.validateBlock env m).report = some (c.peer, x)) ∨
    ∃ env m, m.receivedFrom = c.peer ∧ (GossipValidate.validateTransaction env m).report = some (c.peer, x)

/-- A transaction was refused. -/
def txRefusal (x : Err) : Bool := x.is .transactionApplication || x.is .invalidNonce

/-- How many transactions of peer `p` were refused. -/
def refusedTxs (p : Bytes) (ls : List KP2P.Joint.Label) : Nat :=
  ls.countP fun
    | .gossip c x => decide (c.peer = p) && txRefusal x
    | _ => false

/-- How many of its other messages were objected to: blocks, and what could not be read. -/
def refusedBlocks (p : Bytes) (ls : List KP2P.Joint.Label) : Nat :=
  ls.countP fun
    | .gossip c x => decide (c.peer = p) && !txRefusal x
    | _ => false

/-- An infinite execution from the beginning. -/
def Exec (d : Spec.Decay) (eo : ErrOpts) (o : Opts) (t : Time) (σ : Nat → KP2P.Joint.State) (ev : Nat → KP2P.Joint.Label) : Prop :=
  σ 0 = KP2P.Joint.init t ∧ ∀ n, KP2P.Joint.step d eo o (σ n) (ev n) = some (σ (n + 1))

/-- The session has found error `e` and not yet sent it. -/
def Waits (e : Err) (st : Session.State) : Prop := e ∈ st.reporters ∨ st.phase = .reporting e

/-- The step is one of the `k`-th session, and sends `e`. -/
def Sends (k : Nat) (e : Err) (s : KP2P.Joint.State) (l : KP2P.Joint.Label) : Prop :=
  ∃ p l' c st, l = .session p k l' ∧ s.sess[k]? = some (c, st) ∧ KP2P.Joint.told st l' = some e

/-- A session that goes on does not keep an error to itself for ever (the error handler receives). -/
def FairSends (σ : Nat → KP2P.Joint.State) (ev : Nat → KP2P.Joint.Label) : Prop :=
  ∀ k e n, (∀ m, n ≤ m → ∃ c st, (σ m).sess[k]? = some (c, st) ∧ st.cancelled = false ∧ Waits e st) → ∃ m, n ≤ m ∧ Sends k e (σ m) (ev m)

/-- The error handler does not leave a report waiting for ever. -/
def FairReports (σ : Nat → KP2P.Joint.State) (ev : Nat → KP2P.Joint.Label) : Prop :=
  ∀ c e n, (∀ m, n ≤ m → (c, e) ∈ (σ m).net.errs) → ∃ m, n ≤ m ∧ ∃ l, ev m = .net l ∧ TakesUp c e (σ m).net l

/-- The node does not leave a request to disconnect waiting for ever. -/
def FairCloses (σ : Nat → KP2P.Joint.State) (ev : Nat → KP2P.Joint.Label) : Prop :=
  ∀ p n, (∀ m, n ≤ m → p ∈ (σ m).net.closing) → ∃ m, n ≤ m ∧ ∃ l, ev m = .net l ∧ CarriesOut p (σ m).net l

/-- The scores do not exceed 64 bits. -/
def NoOverflow (eo : ErrOpts) (σ : Nat → KP2P.Joint.State) : Prop := ∀ n ip, totalCharged (entriesFor eo ip (σ n).net.hist) < 2 ^ 64

end Joint
end Spec
end KP2P
