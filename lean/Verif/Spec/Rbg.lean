import Verif.Spec.Descent

/-! # Specification: work functions -/

namespace Soco.Spec
open Soco

/-- The cost of being at `prev` before slot `t`, then playing `ys`, and finally moving to `x`; movement is scaled by `θ`. -/
def prefixCost (hit : Int → Config ℚ → ECost) (mv : Config ℚ → ℚ) (θ : ℚ) : Int → Config ℚ → List (Config ℚ) → Config ℚ → ECost
  | _, prev, [], x => ((θ * mv (List.zipWith (· - ·) x prev) : ℚ) : ECost)
  | t, prev, y :: ys, x => ((θ * mv (List.zipWith (· - ·) y prev) : ℚ) : ECost) + hit t y + prefixCost hit mv θ (t + 1) y ys x

/-- `c` is the smallest cost, over all schedules for the slots `1, …, t` on the grid, of beginning at zero, playing the
schedule and then moving to `x`. -/
structure IsWork (box : List (ℚ × ℚ)) (hit : Int → Config ℚ → ECost) (mv : Config ℚ → ℚ) (θ : ℚ) (t : Nat) (x : Config ℚ)
    (c : ECost) : Prop where
  attained : ∃ ys : List (Config ℚ), ys.length = t ∧ (∀ y ∈ ys, GridPoint box y) ∧
    prefixCost hit mv θ 1 (List.replicate box.length 0) ys x = c
  least : ∀ ys : List (Config ℚ), ys.length = t → (∀ y ∈ ys, GridPoint box y) →
    c ≤ prefixCost hit mv θ 1 (List.replicate box.length 0) ys x

/-- `x` is a decision of the greedy rule with bias `r` in slot `t`: it minimises the work function plus `r` times the scaled
distance from zero. -/
def Greedy (box : List (ℚ × ℚ)) (hit : Int → Config ℚ → ECost) (mv : Config ℚ → ℚ) (θ : ℚ) (t : Nat) (r : ℚ) (x : Config ℚ) : Prop :=
  GridPoint box x ∧ ∃ c, IsWork box hit mv θ t x c ∧ ∀ y c', GridPoint box y → IsWork box hit mv θ t y c' →
    c + ((r * θ * mv x : ℚ) : ECost) ≤ c' + ((r * θ * mv y : ℚ) : ECost)

end Soco.Spec
