import Mathlib.Data.Rat.Defs
import Mathlib.Algebra.Order.Ring.Rat
import Mathlib.Data.Int.Log
import Mathlib.Algebra.Order.Round
import Mathlib.Data.Rat.Floor

/-!
# What is assumed about the rounding of floating point numbers
-/

namespace Soco.Spec

/-- Rounding with relative error at most `u`. For `f64` and results in the range of normal numbers, `u = 2⁻⁵³`. -/
structure Rounds (u : ℚ) (fl : ℚ → ℚ) : Prop where
  nonneg : 0 ≤ u
  lt_one : u < 1
  below : ∀ x, 0 ≤ x → (1 - u) * x ≤ fl x
  above : ∀ x, 0 ≤ x → fl x ≤ (1 + u) * x

/-- Rounding to the nearest number with 53 binary digits (ties upwards, every exponent allowed). -/
def double (x : ℚ) : ℚ :=
  (round (x * 2 ^ (52 - Int.log 2 x)) : ℚ) * 2 ^ (Int.log 2 x - 52)

/-- How many results are rounded on a path through the graph of a problem with `T` slots and the given bounds: in each slot, at
most one addition per server when powering up, one when powering down, and two in between; and the two products of a
switching cost. -/
def roundings (T : Nat) (bounds : List ℤ) : Nat := T * (2 * (bounds.map Int.toNat).sum + 2) + 1

end Soco.Spec
