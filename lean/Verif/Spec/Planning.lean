import Verif.Spec.SingleType
import Verif.Spec.Schedule

/-! # Specification: plans for a data center with a single type of servers and jobs -/

namespace Soco.Spec
open Soco

namespace Farm
variable (F : Farm)

/-- A plan gives a number of servers for the load of every slot. -/
def IsPlan (loads : List ℚ) (plan : List ℤ) : Prop :=
  plan.length = loads.length ∧ ∀ j ∈ plan, 0 ≤ j ∧ j ≤ F.servers

/-- What a plan costs: in every slot the servers which process its load, and the servers which are powered up. -/
def planCost (loads : List ℚ) (plan : List ℤ) : ECost :=
  totalCost (fun t (j : ℤ) => F.slotCost t (loads.getD (t - 1).toNat 0) j) (fun y x => F.switching * max 0 ((x : ℚ) - y)) 1 1 0
    plan

/-- A fractional plan may also use parts of servers. -/
def IsFractionalPlan (loads : List ℚ) (plan : List ℚ) : Prop :=
  plan.length = loads.length ∧ ∀ j ∈ plan, 0 ≤ j ∧ j ≤ F.servers

/-- What a fractional plan costs. -/
def fractionalCost (loads : List ℚ) (plan : List ℚ) : ECost :=
  totalCost (fun t (j : ℚ) => F.slotCost t (loads.getD (t - 1).toNat 0) j) (fun y x => F.switching * max 0 (x - y)) 1 1 0 plan

/-- What a fractional plan costs if servers are paid for when they are powered down instead of up. -/
def powerDownCost (loads : List ℚ) (plan : List ℚ) : ECost :=
  totalCost (fun t (j : ℚ) => F.slotCost t (loads.getD (t - 1).toNat 0) j) (fun y x => F.switching * max 0 (y - x)) 1 1 0 plan

/-- There are cheapest fractional plans: rational minima of both costs exist. -/
def HasCheapest (loads : List ℚ) : Prop :=
  (∃ plan, F.IsFractionalPlan loads plan ∧
    ∀ other, F.IsFractionalPlan loads other → F.fractionalCost loads plan ≤ F.fractionalCost loads other) ∧
  ∃ plan, F.IsFractionalPlan loads plan ∧
    ∀ other, F.IsFractionalPlan loads other → F.powerDownCost loads plan ≤ F.powerDownCost loads other

/-- A server which is used more does not consume less energy. -/
def Rising : Prop := ∀ u v, 0 ≤ u → u ≤ v → F.power u ≤ F.power v

end Farm
end Soco.Spec
