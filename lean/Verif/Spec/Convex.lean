import Mathlib.Algebra.Order.Ring.Rat
import Mathlib.Algebra.Order.Ring.Int
import Mathlib.Order.WithBot

/-! # Specification: convexity -/

namespace Soco.Spec

/-- A cost on the integers `0..m` is convex: its increments do not decrease. -/
def ConvexOn (m : ℤ) (f : ℤ → ℚ) : Prop :=
  ∀ z, 0 < z → z < m → 2 * f z ≤ f (z - 1) + f (z + 1)

/-- A cost on the rationals between `0` and `m` is convex. -/
def ConvexOnQ (m : ℚ) (g : ℚ → ℚ) : Prop :=
  ∀ x y, 0 ≤ x → x ≤ m → 0 ≤ y → y ≤ m → ∀ a, 0 ≤ a → a ≤ 1 →
    g ((1 - a) * x + a * y) ≤ (1 - a) * g x + a * g y

/-- An extended-valued cost on the integers `0..m` is convex: for `x < y < z` the point `y` lies below the
chord from `x` to `z`, i.e. `(z - x) f y ≤ (z - y) f x + (y - x) f z`. A chord with an infinite end is no
restriction. -/
def ConvexOnE (m : ℤ) (f : ℤ → WithTop ℚ) : Prop :=
  ∀ x y z : ℤ, 0 ≤ x → x < y → y < z → z ≤ m → ∀ a c : ℚ, f x = a → f z = c →
    ∃ b : ℚ, f y = b ∧ ((z : ℚ) - x) * b ≤ ((z : ℚ) - y) * a + ((y : ℚ) - x) * c

end Soco.Spec
