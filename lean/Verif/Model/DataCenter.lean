import Verif.Model.Loads

/-!
# The model of a network of data centers

Models `implementation/src/model/data_center/model.rs`, `implementation/src/model/data_center/models/*.rs` and
`verify_update` of `implementation/src/model/mod.rs`.

Simplifications: hash maps are partial functions from keys, a missing key panics. The Python closures for prices,
profits and limits are total functions into finite numbers; processing times and routing delays may panic (their cached
variants index hash maps). Divisors (`delta`, active servers, `beta`) are assumed to be non-zero where it matters.
-/

namespace Soco

/-- Indexing a `HashMap<String, X>`: panics if there is no entry. -/
def lookup {α : Type} (m : String → Option α) (key : String) : Res α :=
  match m key with
  | some a => .ok a
  | none => .error .panic

/-- `NumCast::from` on a float (`num` crate): truncates for integral types. -/
class FromFloat (T : Type) where
  fromFloat : ℚ → T

/-- Conversion into `i32` truncates towards zero. -/
instance : FromFloat ℤ := ⟨fun q => if 0 ≤ q then ⌊q⌋ else ⌈q⌉⟩
/-- Conversion into `f64` is the identity. -/
instance : FromFloat ℚ := ⟨fun q => q⟩

/-- `model.rs:41-48` `ServerType`. -/
structure ServerType where
  key : String
  maxUtilization : ℚ

/-- `model.rs:58-64` `limit_utilization`. -/
def ServerType.limitUtilization (st : ServerType) (s : ℚ) (f : Res ECost) : Res ECost :=
  if s ≤ st.maxUtilization then f else .ok ⊤

/-- `model.rs:80-87` `JobType`. -/
structure JobType where
  key : String
  processingTimeOn : ServerType → Res ℚ

/-- `model.rs:216-223` `Location`. -/
structure Location where
  key : String
  m : String → Option ℤ

/-- `model.rs:153-159` `Source`. -/
structure Source where
  key : String
  routingDelayTo : Int → Location → Res ℚ

/-- `models/delay.rs:10-26` `average_delay`. -/
def averageDelay (delta numberOfJobs meanJobDuration : ℚ) : ECost :=
  if numberOfJobs > 0 ∧ meanJobDuration > 0 then
    let serviceRate := 1 / meanJobDuration
    let arrivalRate := numberOfJobs / delta
    if arrivalRate < serviceRate then ((1 / (serviceRate - arrivalRate) : ℚ) : ECost) else ⊤
  else 0

/-- `models/energy_consumption.rs:22-29` `LinearEnergyConsumptionModel`. -/
structure LinearConsumption where
  phiMin : ℚ
  phiMax : ℚ

/-- `models/energy_consumption.rs:55-65` `NonLinearEnergyConsumptionModel`. -/
structure NonLinearConsumption where
  phiMin : ℚ
  alpha : ℚ
  beta : ℚ

/-- `models/energy_consumption.rs:10-18` `EnergyConsumptionModel`; the non-linear model carries the function used for
`powf`. -/
inductive ConsumptionModel where
  | linear (models : String → Option LinearConsumption)
  | simplifiedLinear (phiMax : String → Option ℚ)
  | nonLinear (powf : ℚ → ℚ → ℚ) (models : String → Option NonLinearConsumption)

/-- `models/energy_consumption.rs:81-105` `consumption`. -/
def ConsumptionModel.consumption (m : ConsumptionModel) (delta : ℚ) (st : ServerType) (s : ℚ) : Res ℚ :=
  match m with
  | .linear models => do
    let q ← lookup models st.key
    .ok (delta * ((q.phiMax - q.phiMin) * s + q.phiMin))
  | .simplifiedLinear phiMax => do
    let q ← lookup phiMax st.key
    .ok (delta * (q * (1 + s) / 2))
  | .nonLinear powf models => do
    let q ← lookup models st.key
    .ok (delta * (powf s q.alpha / q.beta + q.phiMin))

/-- `models/energy_cost.rs:14-21` `EnergySource`. -/
structure EnergySource where
  cost : Int → ℚ
  profit : Int → ℚ
  limit : Int → Location → ℚ

/-- `models/energy_cost.rs:74-80` `EnergyCostModel`. -/
inductive EnergyModel where
  | linear (cost : String → Option (Int → ℚ))
  | quotas (sources : String → Option (List EnergySource))

/-- `models/energy_cost.rs:147-151`: sources by increasing sum of cost and profit. -/
def sortSources (t : Int) (sources : List EnergySource) : List EnergySource :=
  sources.mergeSort fun a b => decide (a.cost t + a.profit t ≤ b.cost t + b.profit t)

/-- `models/energy_cost.rs:156` energy that is still to be drawn, where an infinite consumption stays infinite. -/
def quotaDelta (p : ECost) (cumLimit : ℚ) : ECost := p.map fun q => pos (q - cumLimit)

/-- `min(delta, limit)` of `models/energy_cost.rs:158`. -/
def quotaDrawn (delta : ECost) (limit : ℚ) : ℚ :=
  match delta with
  | ⊤ => limit
  | (q : ℚ) => umin q limit

/-- `pos(limit - delta)` of `models/energy_cost.rs:159`. -/
def quotaUnused (delta : ECost) (limit : ℚ) : ℚ :=
  match delta with
  | ⊤ => 0
  | (q : ℚ) => pos (limit - q)

/-- `models/energy_cost.rs:153-162` the loop over the sorted sources. Note the addition of cost and energy drawn. -/
def quotasCost (t : Int) (loc : Location) (p : ECost) : List EnergySource → ℚ → ℚ
  | [], _ => 0
  | s :: ss, cumLimit =>
    let delta := quotaDelta p cumLimit
    let limit := s.limit t loc
    (s.cost t + quotaDrawn delta limit - s.profit t * quotaUnused delta limit) +
      quotasCost t loc p ss (cumLimit + limit)

/-- `models/energy_cost.rs:139-165` `cost`. An infinite consumption at price zero (NaN) is not modelled. -/
def EnergyModel.cost (m : EnergyModel) (t : Int) (loc : Location) (p : ECost) : Res ECost :=
  match m with
  | .linear cost => do
    let c ← lookup cost loc.key
    .ok (ECost.mulQ (c t) p)
  | .quotas sources => do
    let ss ← lookup sources loc.key
    .ok ((quotasCost t loc p (sortSources t ss) 0 : ℚ) : ECost)

/-- `models/revenue_loss.rs:20-27` `MinimalDetectableDelayRevenueLossModel`. -/
structure DelayLoss where
  gamma : ℚ
  delta : ℚ

/-- `models/revenue_loss.rs:47-54` `loss`. -/
def revenueLossOf (models : String → Option DelayLoss) (jt : JobType) (delay : ℚ) : Res ℚ := do
  let m ← lookup models jt.key
  .ok (m.gamma * pos (delay - m.delta))

/-- `models/switching_cost.rs:15-37` `SwitchingCost`. -/
structure SwitchingCost where
  energyCost : ℚ
  phiMin : ℚ
  phiMax : ℚ
  epsilon : ℚ
  delta : ℚ
  tau : ℚ
  rho : ℚ

namespace SwitchingCost

/-- `models/switching_cost.rs:40-46` `switching_cost`. -/
def switchingCost (c : SwitchingCost) : ℚ := c.energyCost * (c.epsilon + c.delta * c.phiMax) + c.tau + c.rho

/-- `models/switching_cost.rs:51-53` `normalized_switching_cost`. -/
def normalized (c : SwitchingCost) (delta : ℚ) : ℚ := c.switchingCost / (c.energyCost * delta * c.phiMin)

/-- `models/switching_cost.rs:57-72` `from_normalized`. -/
def fromNormalized (delta normalizedSwitchingCost energyCost phiMin : ℚ) : SwitchingCost where
  energyCost := energyCost
  phiMin := phiMin
  phiMax := 0
  epsilon := 0
  delta := 0
  tau := 0
  rho := normalizedSwitchingCost * energyCost * delta * phiMin

end SwitchingCost

/-- `models/switching_cost.rs:130-135` `switching_costs`. -/
def switchingCosts (m : String → Option SwitchingCost) (sts : List ServerType) : Res (List ℚ) :=
  sts.mapM fun st => do
    let c ← lookup m st.key
    .ok c.switchingCost

/-- `model.rs:563-567` `parse` (division by zero panics; callers have a positive length). -/
def parse (innerLen i : Nat) : Nat × Nat :=
  let outer := i / innerLen
  (outer, i - outer * innerLen)

/-- `model.rs:570-572` `encode`. -/
def encode (innerLen outer inner : Nat) : Nat := outer * innerLen + inner

/-- `model.rs:235-263` `DataCenterModel`. -/
structure DataCenterModel where
  delta : ℚ
  locations : List Location
  serverTypes : List ServerType
  sources : List Source
  jobTypes : List JobType
  consumptionModel : ConsumptionModel
  energyModel : EnergyModel
  lossModel : String → Option DelayLoss
  switchingModel : String → Option SwitchingCost

namespace DataCenterModel

/-- `model.rs:538-540` `d_`. -/
def d (m : DataCenterModel) : Nat := m.locations.length * m.serverTypes.length

/-- `model.rs:543-545` `e_`. -/
def e (m : DataCenterModel) : Nat := m.sources.length * m.jobTypes.length

/-- `model.rs:299-313` `total_sub_jobs`. -/
def totalSubJobs (m : DataCenterModel) (st : ServerType) (loads : LoadProfile) : Res ℚ :=
  sumM (((List.range loads.length).zip loads).map fun q => do
    let jt ← idx m.jobTypes (parse m.jobTypes.length q.1).2
    let w ← jt.processingTimeOn st
    .ok (w * q.2))

section
variable {T : Type} [Value T]

/-- `model.rs:347-368` the consumption of the servers of one type at one location. -/
def typeConsumption (m : DataCenterModel) (j : Nat) (x : Config T) (lambda : LoadProfile) (zs : LoadFractions)
    (k : Nat) : IRes ECost := do
  let k' := encode m.serverTypes.length j k
  let st ← IRes.ofRes (idx m.serverTypes k)
  let loads ← IRes.ofRes (zs.selectLoads lambda k')
  let total ← IRes.ofRes (m.totalSubJobs st loads)
  let xk ← IRes.ofRes (idx x k')
  let n := toQ xk
  safeBalancing n total (IRes.ofRes (
    let s := total / (n * m.delta)
    st.limitUtilization s (do
      let c ← m.consumptionModel.consumption m.delta st s
      .ok ((n * c : ℚ) : ECost))))

/-- `model.rs:337-368` `energy_consumption`. -/
def energyConsumption (m : DataCenterModel) (j : Nat) (x : Config T) (lambda : LoadProfile) (zs : LoadFractions) :
    IRes ECost :=
  sumM ((List.range m.serverTypes.length).map (m.typeConsumption j x lambda zs))

/-- `model.rs:319-332` `energy_cost`. -/
def energyCost (m : DataCenterModel) (t : Int) (j : Nat) (x : Config T) (lambda : LoadProfile) (zs : LoadFractions) :
    IRes ECost := do
  let p ← m.energyConsumption j x lambda zs
  let loc ← IRes.ofRes (idx m.locations j)
  IRes.ofRes (m.energyModel.cost t loc p)

end

/-- `model.rs:377-401` `revenue_loss`. -/
def revenueLoss (m : DataCenterModel) (t : Int) (loc : Location) (st : ServerType) (src : Source) (jt : JobType)
    (numberOfJobs meanJobDuration : ℚ) : IRes ℚ := do
  let r ← IRes.ofRes (src.routingDelayTo t loc)
  let w ← IRes.ofRes (jt.processingTimeOn st)
  match averageDelay m.delta numberOfJobs meanJobDuration with
  | ⊤ => .error (.failure .infiniteDelay)
  | (q : ℚ) => IRes.ofRes (revenueLossOf m.lossModel jt (q + r + w))

/-- `model.rs:417-423` mean duration of jobs. -/
def meanJobDuration (totalLoad numberOfJobs : ℚ) : ℚ := if numberOfJobs = 0 then 0 else totalLoad / numberOfJobs

/-- `model.rs:426-441` the loss of one source and job type. -/
def lossTerm (m : DataCenterModel) (t : Int) (loc : Location) (st : ServerType) (jobsPerServer duration : ℚ)
    (loads : LoadProfile) (s i : Nat) : IRes ECost := do
  let src ← IRes.ofRes (idx m.sources s)
  let jt ← IRes.ofRes (idx m.jobTypes i)
  let q ← m.revenueLoss t loc st src jt jobsPerServer duration
  let l ← IRes.ofRes (idx loads (encode m.jobTypes.length s i))
  .ok ((q * l : ℚ) : ECost)

/-- `model.rs:404-445` `overall_revenue_loss`. -/
def overallRevenueLoss (m : DataCenterModel) (t : Int) (loc : Location) (st : ServerType) (x : ℚ)
    (loads : LoadProfile) : IRes ECost := do
  let total ← IRes.ofRes (m.totalSubJobs st loads)
  let n := loads.sum
  safeBalancing x n
    (sumM ((List.range m.sources.length).map fun s =>
      sumM ((List.range m.jobTypes.length).map fun i =>
        m.lossTerm t loc st (n / x) (meanJobDuration total n) loads s i)))

section
variable {T : Type} [Value T]

/-- `model.rs:464-475` revenue loss of the servers of one type at one location. -/
def typeLoss (m : DataCenterModel) (t : Int) (j : Nat) (x : Config T) (lambda : LoadProfile) (zs : LoadFractions)
    (k : Nat) : IRes ECost := do
  let k' := encode m.serverTypes.length j k
  let loads ← IRes.ofRes (zs.selectLoads lambda k')
  let loc ← IRes.ofRes (idx m.locations j)
  let st ← IRes.ofRes (idx m.serverTypes k)
  let xk ← IRes.ofRes (idx x k')
  m.overallRevenueLoss t loc st (toQ xk) loads

/-- `model.rs:459-478` the objective of one location. -/
def locationObjective (m : DataCenterModel) (t : Int) (x : Config T) (lambda : LoadProfile) (zs : LoadFractions)
    (j : Nat) : IRes DCObjective := do
  let c ← m.energyCost t j x lambda zs
  let r ← sumM ((List.range m.serverTypes.length).map (m.typeLoss t j x lambda zs))
  .ok ⟨c, r⟩

/-- `model.rs:449-479` `objective`. -/
def objective (m : DataCenterModel) : LoadObjective T := fun t x lambda zs =>
  sumM ((List.range m.locations.length).map (m.locationObjective t x lambda zs))

/-- `model.rs:548-560` `generate_bounds`. -/
def bounds (m : DataCenterModel) : Res (List T) :=
  (List.range m.d).mapM fun k' => do
    let q := parse m.serverTypes.length k'
    let loc ← idx m.locations q.1
    let st ← idx m.serverTypes q.2
    let n ← lookup loc.m st.key
    .ok ((n : ℤ) : T)

/-- `model.rs:676-699` `to` for simplified smoothed convex optimisation. -/
def toSSCO (S : Num.Solver) (m : DataCenterModel) (loads : List LoadProfile) : Res (SSCO T DCSuccess DCFailure) := do
  let bs ← m.bounds
  let sc ← switchingCosts m.switchingModel m.serverTypes
  .ok { d := m.d, tEnd := loads.length, bounds := bs, switchingCost := sc,
        hittingCost := applyLoadsOverTime S m.d m.e m.objective loads 1 }

/-- `model.rs:619-635` `to` for smoothed convex optimisation. -/
def toSCO (S : Num.Solver) (m : DataCenterModel) (loads : List LoadProfile) : Res (SCO T DCSuccess DCFailure) := do
  let p ← m.toSSCO S loads
  .ok p.intoSCO

/-- `model/mod.rs:130-140` `verify_update`. -/
def verifyUpdate (span w : Int) : Res Unit := assertP (decide (span > w))

/-- `model.rs:701-721` `update` for simplified smoothed convex optimisation. -/
def updateSSCO (S : Num.Solver) (choose : Nat → List ℚ → Nat → List ℚ) (m : DataCenterModel)
    (o : Online (SSCO T DCSuccess DCFailure)) (loads : List PredictedLoadProfile) :
    Res (Online (SSCO T DCSuccess DCFailure)) := do
  let t := o.p.tEnd + 1
  verifyUpdate loads.length o.w
  .ok { o with p := { o.p with
    tEnd := t
    hittingCost := o.p.hittingCost.add t (applyPredictedLoads S choose m.d m.e m.objective loads t) } }

/-- `model.rs:637-657` `update` for smoothed convex optimisation. -/
def updateSCO (S : Num.Solver) (choose : Nat → List ℚ → Nat → List ℚ) (m : DataCenterModel)
    (o : Online (SCO T DCSuccess DCFailure)) (loads : List PredictedLoadProfile) :
    Res (Online (SCO T DCSuccess DCFailure)) := do
  let t := o.p.tEnd + 1
  verifyUpdate loads.length o.w
  .ok { o with p := { o.p with
    tEnd := t
    hittingCost := o.p.hittingCost.add t (applyPredictedLoads S choose m.d m.e m.objective loads t) } }

variable [FromFloat T]

/-- `model.rs:781-784` the loads of a homogeneous instance. -/
def singleLoads (loads : List LoadProfile) : Res (List T) :=
  loads.mapM fun lambda => do
    let l ← idx lambda 0
    .ok (FromFloat.fromFloat l)

/-- `model.rs:762-777` cost of a server of some type at utilisation `l`. -/
def serverCost (m : DataCenterModel) (loc : Location) (st : ServerType) : CostFn ℚ Unit DCFailure :=
  CostFn.new 1 (SingleCostFn.certain fun t l => do
    let p ← st.limitUtilization l (do
      let c ← m.consumptionModel.consumption m.delta st l
      .ok ((c : ℚ) : ECost))
    let c ← m.energyModel.cost t loc p
    .ok (Cost.raw c))

/-- `model.rs:737-794` `to` for smoothed balanced-load optimisation. -/
def toSBLO (m : DataCenterModel) (loads : List LoadProfile) : Res (SBLO T) := do
  assertP (m.locations.length == 1)
  let loc ← idx m.locations 0
  assertP (m.sources.length == 1)
  assertP (m.jobTypes.length == 1)
  let bs ← m.bounds
  let sc ← switchingCosts m.switchingModel m.serverTypes
  let load ← singleLoads loads
  .ok { d := m.d, tEnd := loads.length, bounds := bs, switchingCost := sc,
        hittingCost := m.serverTypes.map (m.serverCost loc), load := load }

/-- `model.rs:850-869` the average cost of a fully utilised server of some type. Sums infinite costs never: the
consumption is finite. -/
def fullCost (m : DataCenterModel) (loc : Location) (tEnd : Nat) (st : ServerType) : Res ECost := do
  let p ← m.consumptionModel.consumption m.delta st 1
  if tEnd > 0 then do
    let c ← sumM ((List.range tEnd).map fun t : Nat => m.energyModel.cost (t : Int) loc (p : ECost))
    .ok (ECost.divQ c tEnd)
  else m.energyModel.cost 1 loc (p : ECost)

/-- `model.rs:854-867`. Simplified: the code stores an infinite average as an infinite `f64`; here costs of load optimisation
are finite and the conversion stops. -/
def finiteCost : ECost → Res ℚ
  | ⊤ => .error .panic
  | (q : ℚ) => .ok q

/-- `model.rs:833-881` `to` for smoothed load optimisation. -/
def toSLO (m : DataCenterModel) (loads : List LoadProfile) : Res (SLO T) := do
  assertP (m.locations.length == 1)
  let loc ← idx m.locations 0
  assertP (m.sources.length == 1)
  assertP (m.jobTypes.length == 1)
  let bs ← m.bounds
  let sc ← switchingCosts m.switchingModel m.serverTypes
  let hc ← m.serverTypes.mapM fun st => do
    let c ← m.fullCost loc loads.length st
    finiteCost c
  let load ← singleLoads loads
  .ok { d := m.d, tEnd := loads.length, bounds := bs, switchingCost := sc, hittingCost := hc, load := load }

/-- `model.rs:806-814`, `model.rs:893-901` the load of a homogeneous and certain update. -/
def certainLoad (loads : List PredictedLoadProfile) : Res T := do
  let p ← idx loads 0
  assertP (p.length == 1)
  let zs ← idx p 0
  assertP (zs.length == 1)
  let z ← idx zs 0
  .ok (FromFloat.fromFloat z)

/-- `model.rs:796-816` `update` for smoothed balanced-load optimisation. -/
def updateSBLO (o : Online (SBLO T)) (loads : List PredictedLoadProfile) : Res (Online (SBLO T)) := do
  let t := o.p.tEnd + 1
  assertP (decide (t = (o.p.load.length : Int) + 1))
  assertP (decide ((loads.length : Int) = 1))
  let l ← certainLoad loads
  verifyUpdate loads.length o.w
  .ok { o with p := { o.p with tEnd := t, load := o.p.load ++ [l] } }

/-- `model.rs:883-903` `update` for smoothed load optimisation. -/
def updateSLO (o : Online (SLO T)) (loads : List PredictedLoadProfile) : Res (Online (SLO T)) := do
  let t := o.p.tEnd + 1
  assertP (decide (t = (o.p.load.length : Int) + 1))
  assertP (decide ((loads.length : Int) = 1))
  let l ← certainLoad loads
  verifyUpdate loads.length o.w
  .ok { o with p := { o.p with tEnd := t, load := o.p.load ++ [l] } }

/-- `model.rs:583-590` `into_online`. -/
def intoOnline (loads : List LoadProfile) : List (List PredictedLoadProfile) :=
  loads.map fun lambda => [lambda.intoPredicted]

end

end DataCenterModel

end Soco
