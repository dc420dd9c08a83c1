import Mathlib.Algebra.Order.Ring.Rat
import Mathlib.Algebra.Order.Group.Unbundled.Abs

/-! # Specification: hitting costs for which competitive ratio and regret are analysed -/

namespace Soco.Spec

/-- A cost on the rationals between `lo` and `hi` which is non-negative, convex, and changes by at most `L` per unit. -/
structure Moderate (lo hi L : ℚ) (f : ℚ → ℚ) : Prop where
  nonneg : ∀ x, lo ≤ x → x ≤ hi → 0 ≤ f x
  convex : ∀ x y, lo ≤ x → x ≤ hi → lo ≤ y → y ≤ hi → ∀ a, 0 ≤ a → a ≤ 1 →
    f ((1 - a) * x + a * y) ≤ (1 - a) * f x + a * f y
  slope : ∀ x y, lo ≤ x → x ≤ hi → lo ≤ y → y ≤ hi → |f x - f y| ≤ L * |x - y|

end Soco.Spec
