import Verif.Model.Multiaddr
/-!
# Where the other end of a connection is
-/

namespace KP2P.Spec.Addr
open KP2P.Addr

/-- The protocols that name a host. -/
def NamesHost (p : Proto) : Prop := p = .ip4 ∨ p = .ip6 ∨ p = .dns ∨ p = .dns4 ∨ p = .dns6 ∨ p = .dnsaddr

instance (p : Proto) : Decidable (NamesHost p) := inferInstanceAs (Decidable (_ ∨ _))

/-- The host a multiaddress without relay leads to: a network address or a name, within a zone if one is given. -/
structure Host where
  zone : Option Bytes
  proto : Proto
  value : Bytes
  deriving DecidableEq, Repr

/-- `none`: the address does not say, as it leads through a relay or begins otherwise. -/
def hostOf : List Comp → Option Host
  | [] => none
  | c :: rest =>
    if (c :: rest).any (fun x => x.proto == .circuit) then none
    else if NamesHost c.proto then some ⟨none, c.proto, c.value⟩
    else if c.proto = .ip6zone then match rest with
      | [] => none
      | d :: _ => if d.proto = .ip6 then some ⟨some c.value, d.proto, d.value⟩ else none
    else none

/-- The address begins with a network address or a name. -/
def Plain (a : List Comp) : Prop := ∃ c rest, a = c :: rest ∧ NamesHost c.proto ∧ ∀ x ∈ a, x.proto ≠ .circuit

/-- The address of a connection that peer `relay` at address `at` relays: go-libp2p's circuit transport appends the relay's
id and `/p2p-circuit`. -/
def relayed (at' : List Comp) (relay : Bytes) : List Comp := at' ++ [⟨.p2p, relay⟩, ⟨.circuit, []⟩]

end KP2P.Spec.Addr
