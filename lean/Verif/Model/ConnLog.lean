import Verif.Model.ConnManager
/-!
# Model of the connection log: internal/node/node.go:383-401, `logConnectionsLoop`, and `GetAddress` (lines 361-365)

One report, as it is made every minute. The host's addresses and its connections are inputs; the connections are asked for
twice (lines 391 and 394) and may have changed in between. The text of the lines is not modelled.
-/

namespace KP2P
namespace ConnLog

/-- What is logged. -/
inductive Line where
  /-- line 390 -/
  | own (addr : MAddr)
  /-- line 392 -/
  | peer (c : Conn)
  /-- line 394, "and n more..." -/
  | more (n : Int)
  deriving DecidableEq, Repr

/-- node.go:361-365, `GetAddress`: `addrs[0]` panics (`none`) if the host has no address. -/
def getAddress (addrs : List MAddr) : Option MAddr := addrs[0]?

/-- node.go:391-397: the loop over the connections, from the `i`-th; `later` is the number of connections found in line
394. -/
def peerLines (later : Nat) : Nat → List Conn → List Line
  | _, [] => []
  | i, c :: cs => .peer c :: if i > 10 then [.more ((later : Int) - (i : Int))] else peerLines later (i + 1) cs

/-- node.go:387-397: one report; `none` is a panic. -/
def report (addrs : List MAddr) (conns later : List Conn) : Option (List Line) :=
  match getAddress addrs with
  | none => none
  | some a => some (.own a :: peerLines later.length 0 conns)

end ConnLog
end KP2P
