import Verif.Model.PeerConn
/-!
# Model of the option handling in cmd/koinos-p2p/main.go

Strings are byte strings. Parsing of multi-addresses is a parameter.
-/

namespace KP2P
namespace Config
open KP2P.PeerConn (Checkpoint)

/-- The digit loop of `strconv.ParseUint(s, 10, 64)` (Go standard library): a byte that is no digit gives 0 and an error,
an overflow gives 2^64-1 and an error, whichever comes first. Go's test (`n >= cutoff`, then `n1 < n`) holds exactly if
`n*10+d` does not fit into 64 bits. The flag says whether there was no error. -/
def parseDigits (n : Nat) : Bytes → Nat × Bool
  | [] => (n, true)
  | c :: cs =>
    if 48 ≤ c ∧ c ≤ 57 then
      let n1 := n * 10 + (c.toNat - 48)
      if 18446744073709551616 ≤ n1 then (18446744073709551615, false) else parseDigits n1 cs
    else (0, false)

/-- `strconv.ParseUint(s, 10, 64)`. -/
def parseUint (s : Bytes) : UInt64 × Bool :=
  if s = [] then (0, false) else
  let r := parseDigits 0 s
  (UInt64.ofNat r.1, r.2)

/-- The value of a hexadecimal digit (Go standard library, encoding/hex, `reverseHexTable`). -/
def hexVal (c : UInt8) : Option UInt8 :=
  if 48 ≤ c ∧ c ≤ 57 then some (c - 48)
  else if 97 ≤ c ∧ c ≤ 102 then some (c - 97 + 10)
  else if 65 ≤ c ∧ c ≤ 70 then some (c - 65 + 10)
  else none

/-- `hex.DecodeString` (Go standard library): the bytes decoded before the first error are returned together with the
error. -/
def hexDecode : Bytes → Bytes × Bool
  | a :: b :: rest =>
    match hexVal a, hexVal b with
    | some x, some y =>
      let r := hexDecode rest
      ((x <<< 4 ||| y) :: r.1, r.2)
    | _, _ => ([], false)
  | [_] => ([], false)
  | [] => ([], true)

/-- `strings.SplitN(s, ":", 2)`: the part before the first colon and the part after it, if there is a colon. -/
def splitColon : Bytes → Bytes × Option Bytes
  | [] => ([], none)
  | c :: cs =>
    if c = 58 then ([], some cs)
    else
      let r := splitColon cs
      (c :: r.1, r.2)

/-- main.go:176-193, one turn of the loop over the checkpoint options. `none` is the index panic of line 188; errors are
only logged. -/
def checkpoint (opt : Bytes) : Option Checkpoint :=
  match splitColon opt with
  | (h, some id) => some ⟨(parseUint h).1, (hexDecode id).1⟩
  | (_, none) => none

/-- main.go:176-193, the loop. -/
def checkpoints : List Bytes → Option (List Checkpoint)
  | [] => some []
  | o :: os => match checkpoint o with
    | none => none
    | some c => match checkpoints os with
      | none => none
      | some cs => some (c :: cs)

/-- main.go:151-164, the loop over the peer options. `parse` is `multiaddr.NewMultiaddr` followed by
`peer.AddrInfoFromP2pAddr` (which returns nil for a nil or unsuitable address); the result is dereferenced in line 163
even if it is nil. `none` is the panic. -/
def initialPeers {Addr : Type} (parse : Bytes → Option Addr) : List Bytes → Option (List Addr)
  | [] => some []
  | o :: os => match parse o with
    | none => none
    | some a => match initialPeers parse os with
      | none => none
      | some as => some (a :: as)

end Config
end KP2P
