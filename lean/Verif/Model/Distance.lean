import Verif.Model.Problem
import Mathlib.Analysis.SpecialFunctions.Log.Base
import Mathlib.Analysis.SpecialFunctions.Pow.Real

/-!
# Distances over the real numbers

Models the distances of `implementation/src/distance.rs` which need roots and logarithms. Floating point numbers are real
numbers here.
-/

namespace Soco
namespace Distance

/-- `distance.rs:51-61` `euclidean`. -/
noncomputable def euclidean (x : List ℝ) : ℝ := √((x.map fun j => j ^ 2).sum)

/-- `distance.rs:103-105` `norm_squared`. -/
noncomputable def normSquared (norm : List ℝ → ℝ) (x : List ℝ) : ℝ := norm x ^ 2 / 2

/-- `distance.rs:108-119` `negative_entropy`: panics (`none`) unless all entries are positive. -/
noncomputable def negativeEntropy (x : List ℝ) : Option ℝ :=
  open Classical in
  if ∀ j ∈ x, 0 < j then some ((x.map fun j => j * Real.logb 2 j).sum) else none

end Distance
end Soco
