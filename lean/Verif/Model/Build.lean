import Verif.Model.DataCenter

/-!
# Building models of data centers

Models the constructors of `implementation/src/model/data_center/model.rs` and
`implementation/src/model/data_center/models/*.rs` which take constants or hash maps instead of Python functions.
-/

namespace Soco

/-- `model.rs:49-56` `ServerType::default`. -/
def ServerType.dflt : ServerType where
  key := ""
  maxUtilization := 1

/-- `model.rs:88-95` `JobType::default`. -/
def JobType.dflt : JobType where
  key := ""
  processingTimeOn _ := .ok 1

/-- `model.rs:97-104` `JobType::from_map`. -/
def JobType.fromMap (processingTimes : String → Option ℚ) : JobType where
  key := ""
  processingTimeOn st := lookup processingTimes st.key

/-- `model.rs:128-139` `JobType::from_cached`. -/
def JobType.fromCached (key : String) (processingTimeOn : String → Option ℚ) : JobType where
  key := key
  processingTimeOn st := lookup processingTimeOn st.key

/-- `model.rs:141-147` `JobType::from_const`. -/
def JobType.fromConst (key : String) (processingTime : ℚ) : JobType where
  key := key
  processingTimeOn _ := .ok processingTime

/-- `model.rs:165-172` `Source::default`. -/
def Source.dflt : Source where
  key := ""
  routingDelayTo _ _ := .ok 0

/-- `model.rs:191-202` `Source::from_cached`. -/
def Source.fromCached (key : String) (routingDelayTo : String → Option ℚ) : Source where
  key := key
  routingDelayTo _ loc := lookup routingDelayTo loc.key

/-- `model.rs:204-210` `Source::from_const`. -/
def Source.fromConst (key : String) (routingDelay : ℚ) : Source where
  key := key
  routingDelayTo _ _ := .ok routingDelay

/-- `models/energy_cost.rs:113-118` `LinearEnergyCostModel::from_const`. -/
def linearFromConst (cost : ℚ) : Int → ℚ := fun _ => cost

/-- `models/revenue_loss.rs:28-35` `MinimalDetectableDelayRevenueLossModel::default`. -/
def DelayLoss.dflt : DelayLoss where
  gamma := 1
  delta := 0

/-- `models/switching_cost.rs:138-151` `normalized_switching_costs`. -/
def normalizedSwitchingCosts (m : String → Option SwitchingCost) (delta : ℚ) (sts : List ServerType) : Res (List ℚ) :=
  sts.mapM fun st => do
    let c ← lookup m st.key
    .ok (c.normalized delta)

end Soco
