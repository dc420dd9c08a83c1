import Verif.Spec.Descent
import Verif.Spec.Schedule

/-! # Specification: offline optima of fractional problems -/

namespace Soco.Spec
open Soco

/-- A schedule for `T` slots: points of the decision space whose entries are multiples of the precision. -/
def GridSchedule (box : List (ℚ × ℚ)) (T : Nat) (xs : Schedule ℚ) : Prop := xs.length = T ∧ ∀ x ∈ xs, GridPoint box x

/-- The cost of a schedule for the slots from 1 on, beginning at zero; movement costs `mv` of the difference. -/
def scheduleCost (d : Nat) (hit : Int → Config ℚ → ECost) (mv : Config ℚ → ℚ) (α : ℚ) (xs : Schedule ℚ) : ECost :=
  totalCost hit (fun y x => mv (List.zipWith (· - ·) x y)) α 1 (List.replicate d 0) xs

/-- The movement cost of a schedule, beginning at zero. -/
def scheduleMove (d : Nat) (mv : Config ℚ → ℚ) (xs : Schedule ℚ) : ℚ :=
  totalMove (fun y x => mv (List.zipWith (· - ·) x y)) (List.replicate d 0) xs

end Soco.Spec
