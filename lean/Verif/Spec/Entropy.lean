import Mathlib.Data.Real.Basic

/-! # Specification: strongly convex and smooth functions -/

namespace Soco.Spec

/-- The point between `x` and `y`, closer to `y` the larger `c` is. -/
def between' (c : ℝ) (x y : List ℝ) : List ℝ := List.zipWith (fun a b => (1 - c) * a + c * b) x y

/-- The Manhattan distance of `x` and `y`. -/
def apart (x y : List ℝ) : ℝ := (List.zipWith (fun a b => |a - b|) x y).sum

/-- `h` is defined on `P` and `m`-strongly convex with respect to the Manhattan distance: a chord lies above `h`, by at least
`m / 2 * c * (1 - c)` times the squared length of the chord. -/
def StronglyConvexOn (P : List ℝ → Prop) (m : ℝ) (h : List ℝ → Option ℝ) : Prop :=
  ∀ x y, P x → P y → x.length = y.length → ∀ c, 0 ≤ c → c ≤ 1 →
    ∃ a b v, h x = some a ∧ h y = some b ∧ h (between' c x y) = some v ∧
      v + m / 2 * (c * (1 - c)) * apart x y ^ 2 ≤ (1 - c) * a + c * b

/-- `h` is defined on `P` and `M`-smooth with respect to the Manhattan distance: a chord lies above `h`, by at most
`M / 2 * c * (1 - c)` times the squared length of the chord. -/
def SmoothOn (P : List ℝ → Prop) (M : ℝ) (h : List ℝ → Option ℝ) : Prop :=
  ∀ x y, P x → P y → x.length = y.length → ∀ c, 0 ≤ c → c ≤ 1 →
    ∃ a b v, h x = some a ∧ h y = some b ∧ h (between' c x y) = some v ∧
      (1 - c) * a + c * b ≤ v + M / 2 * (c * (1 - c)) * apart x y ^ 2

/-- The interior of the simplex: positive entries with sum 1. -/
def Simplex (x : List ℝ) : Prop := (∀ j ∈ x, 0 < j) ∧ x.sum = 1

/-- The `δ`-interior of the simplex. -/
def SimplexFrom (δ : ℝ) (x : List ℝ) : Prop := (∀ j ∈ x, δ ≤ j) ∧ x.sum = 1

end Soco.Spec
