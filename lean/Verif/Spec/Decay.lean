import Verif.Spec.ErrorHandler
import Mathlib.Analysis.SpecialFunctions.Pow.Real
/-!
# Exponential decay with rounding, and the exact sum of decayed charges
-/

namespace KP2P.Spec

/-- What is left of one point after time `t`, the half-life being `h`: `2^(-t/h)`. -/
noncomputable def left (h t : Int) : ℝ := (2 : ℝ) ^ (-(t : ℝ) / (h : ℝ))

/-- A decay law computed with relative error at most `ε` before the result is truncated to an integer. The law of
error_handler.go:204-206 over float64 is of this kind with a tiny `ε`; over the reals `ε` is 0. -/
def Rounded (h : Int) (ε : ℝ) (d : Decay) : Prop :=
  ∀ t : Int, 0 ≤ t → ∀ s : UInt64, ∃ y : ℝ, (s.toNat : ℝ) * left h t * (1 - ε) ≤ y ∧ y ≤ (s.toNat : ℝ) * left h t * (1 + ε) ∧
    (d t s).toNat = ⌊y⌋₊

/-- The sum of all charges, each decayed from its own instant to `T`, without any rounding. -/
noncomputable def decayedSum (h : Int) (es : List (Int × Entry)) (T : Int) : ℝ :=
  (es.map fun e => match e.2 with
    | .charge n => (n.toNat : ℝ) * left h (T - e.1)
    | .read => 0).sum

/-- The charges made after instant `t`. -/
def chargedAfter (t : Int) (es : List (Int × Entry)) : Nat := totalCharged (es.filter fun e => decide (t < e.1))

/-- The charges made after `t` and not after `u`. -/
def chargedBetween (t u : Int) (es : List (Int × Entry)) : Nat :=
  totalCharged (es.filter fun e => decide (t < e.1) && decide (e.1 ≤ u))

end KP2P.Spec
