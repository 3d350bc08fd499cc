import Verif.Base.Basic
/-!
# Base64 without padding as arithmetic (RFC 4648, section 4), for C55
-/

namespace KP2P.Spec

/-- The alphabet `A-Za-z0-9+/`, as ASCII. -/
def b64Alphabet : List UInt8 :=
  [65, 66, 67, 68, 69, 70, 71, 72, 73, 74, 75, 76, 77, 78, 79, 80, 81, 82, 83, 84, 85, 86, 87, 88, 89, 90,
   97, 98, 99, 100, 101, 102, 103, 104, 105, 106, 107, 108, 109, 110, 111, 112, 113, 114, 115, 116, 117, 118, 119, 120, 121, 122,
   48, 49, 50, 51, 52, 53, 54, 55, 56, 57, 43, 47]

/-- The number written by these bytes, most significant first, after the digits of `acc`. -/
def value256 (acc : Nat) (bs : List UInt8) : Nat := bs.foldl (fun n b => n * 256 + b.toNat) acc

/-- The number written by these characters as digits to the base 64. -/
def value64 (acc : Nat) (cs : List UInt8) : Nat := cs.foldl (fun n c => n * 64 + b64Alphabet.idxOf c) acc

/-- `cs` is the encoding of `bs`: as many characters as needed, all from the alphabet, and they write the bits of `bs`
followed by zeros. -/
structure IsBase64 (bs cs : List UInt8) : Prop where
  length : cs.length = (8 * bs.length + 5) / 6
  alphabet : ∀ c ∈ cs, c ∈ b64Alphabet
  value : value64 0 cs = value256 0 bs * 2 ^ (6 * cs.length - 8 * bs.length)

end KP2P.Spec
