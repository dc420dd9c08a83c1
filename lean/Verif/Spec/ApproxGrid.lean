import Mathlib.Data.Rat.Floor

/-! The values the approximation scheme may use: 0, the bounds, and the powers of `γ` rounded down or up,
as long as they do not exceed the largest bound. -/

namespace Soco.Spec

/-- `x` is a value of the approximation grid. -/
def OnPowerGrid (γ : ℚ) (bounds : List ℤ) (x : ℤ) : Prop :=
  x = 0 ∨ x ∈ bounds ∨ ∃ j, 1 ≤ j ∧ (x = ⌊γ ^ j⌋ ∨ x = ⌈γ ^ j⌉) ∧ ∃ b ∈ bounds, x ≤ b

end Soco.Spec
