import Verif.Model.ErrorHandler
/-!
# Multiaddresses, as far as internal/p2p/error_handler.go looks at them

`github.com/multiformats/go-multiaddr` is outside the repository. A multiaddress is a list of components; only the
protocols that occur in addresses of connections are represented, each with the name the library gives it.
-/

namespace KP2P
namespace Addr

/-- The protocols of go-multiaddr that addresses of connections are made of. -/
inductive Proto where
  | ip4 | ip6 | ip6zone | dns | dns4 | dns6 | dnsaddr | tcp | udp | quicv1 | ws | p2p | circuit
  deriving DecidableEq, Repr

/-- The names: "ip4", "ip6", "ip6zone", "dns", "dns4", "dns6", "dnsaddr", "tcp", "udp", "quic-v1", "ws", "p2p",
"p2p-circuit". -/
def Proto.name : Proto → Bytes
  | .ip4 => [105, 112, 52]
  | .ip6 => [105, 112, 54]
  | .ip6zone => [105, 112, 54, 122, 111, 110, 101]
  | .dns => [100, 110, 115]
  | .dns4 => [100, 110, 115, 52]
  | .dns6 => [100, 110, 115, 54]
  | .dnsaddr => [100, 110, 115, 97, 100, 100, 114]
  | .tcp => [116, 99, 112]
  | .udp => [117, 100, 112]
  | .quicv1 => [113, 117, 105, 99, 45, 118, 49]
  | .ws => [119, 115]
  | .p2p => [112, 50, 112]
  | .circuit => [112, 50, 112, 45, 99, 105, 114, 99, 117, 105, 116]

/-- Whether a component of the protocol carries a value. -/
def Proto.valued : Proto → Bool
  | .quicv1 | .ws | .circuit => false
  | _ => true

structure Comp where
  proto : Proto
  value : Bytes
  deriving DecidableEq, Repr

/-- `Component.String()`: `/name/value`, or `/name`. -/
def Comp.text (c : Comp) : Bytes :=
  47 :: c.proto.name ++ (if c.proto.valued then 47 :: c.value else [])

/-- error_handler.go:103, 112, 122: `ma.Split(addr)[0].String()`, the key of the score map. `none`: the index panics. -/
def key : List Comp → Option Bytes
  | [] => none
  | c :: _ => some c.text

/-- The address as `Model/ErrorHandler` sees it. -/
def seen : List Comp → Option MAddr
  | [] => none
  | c :: rest => some { ip := c.text, rest := rest.map Comp.text }

end Addr
end KP2P
