import Mathlib.Data.Rat.Floor
import Mathlib.Algebra.Order.Floor.Ring
import Mathlib.Algebra.Order.Ring.Rat

/-! # Specification: the largest of the last loads -/

namespace Soco.Spec

/-- The largest of the last `W` loads, and zero if there are none. -/
def windowMax (W : Nat) (loads : List ℤ) : ℤ := (loads.drop (loads.length - W)).foldr max 0

/-- How many slots' operating costs are at most `g` times the switching cost, but at least one. -/
def keepSlots (g β c : ℚ) : Nat := max 1 ⌊g * β / c⌋.toNat

end Soco.Spec
