import Verif.Props.Monotone
import Verif.Model.MultiGraph
/-!
# C108: with several types of servers the claim does not extend to each type
-/

namespace Soco

/-- Two types of servers, for jobs which must be processed: the first is cheap to power up, the second is cheap to run. -/
def Ex.twoTypes (loads : List ℤ) : SSCO ℤ Unit Unit where
  d := 2
  tEnd := loads.length
  bounds := [1, 1]
  switchingCost := [1, 4]
  hittingCost := CostFn.new 1 (SingleCostFn.certain fun t x => .ok (Cost.raw
    (if x.sum < loads.getD (t - 1).toNat 0 then ⊤ else (((3 * x.getD 0 0 + x.getD 1 0 : ℤ) : ℚ) : ECost))))

/-- With several types of servers, more load can lead to fewer servers of a type: a single job is processed by a server which is cheap to
power up, jobs in both slots by one which is cheap to run. -/
theorem C108_several_types_counterexample :
    (Multi.optimalGraphSearch (Ex.twoTypes [1, 0]) none ⟨false, 1, none⟩).map (·.path.xs) = .ok [[1, 0], [0, 0]] ∧
    (Multi.optimalGraphSearch (Ex.twoTypes [1, 1]) none ⟨false, 1, none⟩).map (·.path.xs) = .ok [[0, 1], [0, 1]] := by
  decide +kernel
end Soco
