import Verif.Model.Pacing
/-!
# The deadlines of the calls a session makes (internal/p2p/peer_connection.go, connection_manager.go:197)

Every call of a handshake or of a round gets a context of its own with a time-out. What is not modelled here is the callee:
that a call returns when its context has ended is an assumption of the theorems (for the version it is `C127_in_time`, for
`ApplyBlock` `C106`; the RPC libraries are outside the repository).
-/

namespace KP2P
namespace Deadlines
open PeerConn

/-- internal/options/peer_connection_options.go:29-31 and 33, connection_manager_options.go:13; `lag`: how long after the
end of its context a call may take to return. -/
structure Timeouts where
  localRPC : Nat
  applicator : Nat
  remoteRPC : Nat
  blockRequest : Nat
  version : Nat
  lag : Nat
  deriving DecidableEq, Repr

/-- peer_connection_options.go:16-20, connection_manager_options.go:7: the defaults, in nanoseconds. -/
def Timeouts.default (lag : Nat) : Timeouts :=
  { localRPC := 6 * 1000000000, applicator := 6 * 1000000000 * 2, remoteRPC := 6 * 1000000000
    blockRequest := 150 * 1000000000, version := 5 * 1000000000, lag := lag }

/-- The time-out of a call: connection_manager.go:197; peer_connection.go:49, 57, 69 and 97, 77 and 131, 111, 153, 162. -/
def timeout (t : Timeouts) : Call → Nat
  | .version => t.version
  | .localChainID => t.localRPC
  | .peerChainID => t.remoteRPC
  | .peerHead => t.remoteRPC
  | .peerAncestor _ _ => t.remoteRPC
  | .localBlocksByID _ => t.localRPC
  | .peerBlocks _ _ _ => t.blockRequest
  | .applyBlock _ => t.applicator

/-- The longest time the calls may take, made one after the other. -/
def budget (t : Timeouts) : List Call → Nat
  | [] => 0
  | c :: cs => timeout t c + t.lag + budget t cs

end Deadlines
end KP2P
