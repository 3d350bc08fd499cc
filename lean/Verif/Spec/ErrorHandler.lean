import Verif.Base.Basic
/-!
# Specification of per-address error accounts

An account belongs to one network address.  It is opened by the first charge, every later charge or read first
lets the balance decay for the time elapsed since the last one.
-/

namespace KP2P.Spec

/-- A decay law: elapsed time → score → score. -/
abbrev Decay := Int → UInt64 → UInt64

/-- Decaying never increases a score. -/
def Decay.NonIncreasing (d : Decay) : Prop := ∀ t : Int, 0 ≤ t → ∀ s, d t s ≤ s

inductive Entry where
  | charge (n : UInt64)
  | read
  deriving DecidableEq, Repr

/-- Balance of an account: instant of the last change and score at that instant; `none` if never charged. -/
abbrev Balance := Option (Int × UInt64)

/-- What a query sees at time `t`. -/
def Balance.at (d : Decay) (b : Balance) (t : Int) : Option UInt64 := b.map fun x => d (t - x.1) x.2

/-- One entry. -/
def Balance.post (d : Decay) (b : Balance) (t : Int) : Entry → Balance
  | .charge n => match b.at d t with
    | none => some (t, n)
    | some s => some (t, s + n)
  | .read => (b.at d t).map fun s => (t, s)

/-- The balance after a list of entries. -/
def balanceFrom (d : Decay) (b : Balance) : List (Int × Entry) → Balance
  | [] => b
  | (t, x) :: es => balanceFrom d (b.post d t x) es

/-- The balance of a new account after a list of entries. -/
def balance (d : Decay) (es : List (Int × Entry)) : Balance := balanceFrom d none es

/-- Sum of all charges (unbounded integer). -/
def totalCharged : List (Int × Entry) → Nat
  | [] => 0
  | (_, .charge n) :: es => n.toNat + totalCharged es
  | (_, .read) :: es => totalCharged es

/-- The clock never goes backwards. -/
def InOrder (es : List (Int × Entry)) : Prop := (es.map Prod.fst).Pairwise (· ≤ ·)

end KP2P.Spec
