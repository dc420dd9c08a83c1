import Verif.Model.Loads
import Verif.Spec.Schedule
import Verif.Spec.CostFn

/-! # Specification: load problems, and optimisation without variables -/

namespace Soco.Spec
open Soco

/-- What a configuration costs in a slot of a load problem: infinite if there are fewer servers than units of load,
and the sum of the hitting costs of its servers otherwise. -/
def loadCost (p : SLO ℤ) (t : Int) (x : Config ℤ) : ECost :=
  if x.sum < p.load.getD (t - 1).toNat 0 then ⊤ else ((weighted p.hittingCost x : ℚ) : ECost)

/-- What a schedule of a load problem costs, starting without active servers. -/
def loadTotal (p : SLO ℤ) (xs : Schedule ℤ) : ECost :=
  totalCost (loadCost p) (upCost p.switchingCost) 1 1 (List.replicate p.d.toNat 0) xs

/-- A schedule of the horizon's length inside the bounds. -/
def InSpace (tEnd : Int) (bounds : List ℤ) (xs : Schedule ℤ) : Prop :=
  (xs.length : Int) = tEnd ∧ ∀ x ∈ xs, InBox bounds x

/-- The optimiser deals with problems without variables: all it evaluates and returns is the empty vector, and it
terminates regularly. -/
def SolvesEmpty (S : Num.Solver) : Prop := ∀ f init cs,
  (∀ q ∈ (S [] f init cs).probes, q = []) ∧ (S [] f init cs).x = [] ∧ (S [] f init cs).status = .done

end Soco.Spec
