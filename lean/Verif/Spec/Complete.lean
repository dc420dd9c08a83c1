import Verif.Model.DataCenter

/-! # Specification: which parameters a model of a data center must contain -/

namespace Soco.Spec
open Soco

variable (m : DataCenterModel)

/-- Every location knows the number of its servers of each type. -/
def HasCounts : Prop := ∀ loc ∈ m.locations, ∀ st ∈ m.serverTypes, ∃ n, loc.m st.key = some n

/-- Every server type has a switching cost. -/
def HasSwitching : Prop := ∀ st ∈ m.serverTypes, ∃ c, m.switchingModel st.key = some c

/-- Every server type has a model of its energy consumption. -/
def HasPower : Prop := ∀ st ∈ m.serverTypes,
  match m.consumptionModel with
  | .linear models => ∃ q, models st.key = some q
  | .simplifiedLinear phiMax => ∃ q, phiMax st.key = some q
  | .nonLinear _ models => ∃ q, models st.key = some q

/-- Every location has a model of its energy costs. -/
def HasPrice : Prop := ∀ loc ∈ m.locations,
  match m.energyModel with
  | .linear cost => ∃ q, cost loc.key = some q
  | .quotas sources => ∃ q, sources loc.key = some q

/-- Every job type has a model of the revenue lost by delays. -/
def HasLoss : Prop := ∀ jt ∈ m.jobTypes, ∃ q, m.lossModel jt.key = some q

/-- Every job type has a processing time on every server type. -/
def HasTimes : Prop := ∀ jt ∈ m.jobTypes, ∀ st ∈ m.serverTypes, ∃ w, jt.processingTimeOn st = .ok w

/-- Every source has a routing delay to every location in slot `t`. -/
def HasRoutes (t : Int) : Prop := ∀ src ∈ m.sources, ∀ loc ∈ m.locations, ∃ w, src.routingDelayTo t loc = .ok w

/-- The assignment sends a load which is not negative, of every source and job type, to each of the `d` kinds of servers. -/
def SendsLoads (d e : Nat) (lambda : LoadProfile) (zs : LoadFractions) : Prop :=
  ∀ k, k < d → ∃ ls, zs.selectLoads lambda k = .ok ls ∧ ls.length = e ∧ ∀ l ∈ ls, 0 ≤ l

end Soco.Spec
