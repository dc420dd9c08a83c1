import Verif.Spec.CostFn

/-! # Specification: static configurations -/

namespace Soco.Spec
open Soco

/-- `c` is the least value of `F` over the configurations within the bounds that begin with `u`, and it is
attained. -/
def LeastWith (F : Config ℤ → ECost) (bounds : List (ℤ × ℤ)) (u : Config ℤ) (c : ECost) : Prop :=
  (∃ v, InBoxes bounds (u ++ v) ∧ F (u ++ v) = c) ∧ ∀ v, InBoxes bounds (u ++ v) → c ≤ F (u ++ v)

/-- Quasi-convexity in the next coordinate of the least values: on the way between two values of the coordinate the
least cost never exceeds both. -/
def QuasiConvexMarginals (F : Config ℤ → ECost) (bounds : List (ℤ × ℤ)) : Prop :=
  ∀ (u : Config ℤ) (i j l : ℤ) (a b c : ECost), i < j → j < l → LeastWith F bounds (u ++ [i]) a →
    LeastWith F bounds (u ++ [j]) b → LeastWith F bounds (u ++ [l]) c → b ≤ max a c

/-- An extended-valued cost is convex between two integers (three-point form). -/
def ConvexBetween (lo hi : ℤ) (f : ℤ → ECost) : Prop :=
  ∀ x y z : ℤ, lo ≤ x → x < y → y < z → z ≤ hi → ∀ a c : ℚ, f x = a → f z = c →
    ∃ b : ℚ, f y = b ∧ ((z : ℚ) - x) * b ≤ ((z : ℚ) - y) * a + ((y : ℚ) - x) * c

end Soco.Spec
