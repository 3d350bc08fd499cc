import Verif.Base.Basic
/-!
# Texts of the source as bytes
-/

namespace KP2P

/-- The bytes of an ASCII text. -/
def ascii (s : String) : Bytes := s.toList.map fun c => UInt8.ofNat c.toNat

end KP2P
