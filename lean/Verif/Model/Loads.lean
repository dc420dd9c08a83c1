import Verif.Model.Numerics
import Verif.Model.Convert

/-!
# Loads and balanced-load problems

Models `implementation/src/model/data_center/{mod,loads}.rs`, smoothed balanced-load optimisation in
`implementation/src/problem.rs` and `implementation/src/verifiers.rs`, and the load based conversions of
`implementation/src/convert.rs`.
-/

namespace Soco

/-- How an `IntermediateResult` (`model/data_center/mod.rs:144-147`) can end other than by a value: a panic or a model
failure. -/
inductive Stop where
  | panic
  | failure (f : DCFailure)
deriving DecidableEq, Repr

/-- `model/data_center/mod.rs:144-147` `IntermediateResult`, `IntermediateObjective`. -/
abbrev IRes (α : Type) := Except Stop α

/-- Computations that can only panic inside of a computation that can also fail. -/
def IRes.ofRes {α : Type} : Res α → IRes α
  | .ok a => .ok a
  | .error _ => .error .panic

/-- `Iterator::sum` over results, `Sum for Result`: the first error decides. -/
def sumM {ε α : Type} [Zero α] [Add α] : List (Except ε α) → Except ε α
  | [] => .ok 0
  | a :: as => do
    let x ← a
    let s ← sumM as
    .ok (x + s)

/-- `model/data_center/mod.rs:99-104` `DataCenterObjective`. -/
structure DCObjective where
  energyCost : ECost
  revenueLoss : ECost

/-- `model/data_center/mod.rs:120-142` `Default`, `Add` (and with them `Sum`) for `DataCenterObjective`. -/
instance : Zero DCObjective := ⟨⟨0, 0⟩⟩
instance : Add DCObjective := ⟨fun a b => ⟨a.energyCost + b.energyCost, a.revenueLoss + b.revenueLoss⟩⟩

/-- `model/data_center/mod.rs:150-163` `safe_balancing`. -/
def safeBalancing (x totalLoad : ℚ) (f : IRes ECost) : IRes ECost :=
  if x > 0 then f
  else if totalLoad > 0 then .error (.failure .loadToInactiveServer)
  else if totalLoad = 0 then .ok 0
  else .error .panic

/-- `model/data_center/loads.rs:38` `LoadProfile`: one load per type. -/
abbrev LoadProfile := List ℚ

/-- `loads.rs:346-354` `LoadFractions`. Numbers of dimensions and types are naturals. -/
structure LoadFractions where
  zs : List ℚ
  d : Nat
  e : Nat

namespace LoadFractions

/-- `loads.rs:386-394` `LoadFractions::new`: rounds to the numeric precision. -/
def new (zs : List ℚ) (d e : Nat) : LoadFractions := ⟨Num.applyPrecisionVec zs, d, e⟩

/-- `loads.rs:358-376` `get`; `self.d as usize - 1` underflows if there is no dimension. -/
def get (z : LoadFractions) (k i : Nat) (lambda : LoadProfile) : Res ℚ :=
  if z.d = 0 then .error .panic
  else if k < z.d - 1 then idx z.zs (k * z.e + i)
  else if k = z.d - 1 then
    if lambda.sum > 0 then do
      let l ← idx lambda i
      let s ← sumM ((List.range k).map fun j => idx z.zs (j * z.e + i))
      .ok (l / lambda.sum - s)
    else .ok 0
  else .error .panic

/-- `loads.rs:379-384` `select_loads`. -/
def selectLoads (z : LoadFractions) (lambda : LoadProfile) (k : Nat) : Res LoadProfile :=
  (List.range z.e).mapM fun i => do
    let l ← idx lambda i
    let f ← z.get k i lambda
    .ok (l * f)

end LoadFractions

section
variable {T : Type} [Value T]

/-- The closure type of `loads.rs:403-411`: cost of a slot for a configuration, a load profile and an assignment. -/
abbrev LoadObjective (T : Type) := Int → Config T → LoadProfile → LoadFractions → IRes DCObjective

/-- `loads.rs:523-540` objective handed to the solver: failures become infinite costs
(`model/data_center/mod.rs:113-118`). -/
def solverObjective (d e : Nat) (objective : LoadObjective T) (lambda : LoadProfile) (t : Int) (x : Config T)
    (zs : List ℚ) : Res ECost :=
  match objective t x lambda (LoadFractions.new zs d e) with
  | .ok o => .ok (o.energyCost + o.revenueLoss)
  | .error (.failure _) => .ok ⊤
  | .error .panic => .error .panic

/-- `loads.rs:542-563` initial assignment. -/
def initialFractions (solverD e : Nat) (x : Config T) : List ℚ :=
  let n := (x.filter fun j => decide (j > 0)).length
  if n = 0 then List.replicate solverD (1 / ((solverD : ℚ) + e))
  else x.dropLast.flatMap fun j => List.replicate e (if j = 0 then 0 else 1 / ((n : ℚ) * e))

/-- `loads.rs:501-604` `apply_loads`. -/
def applyLoads (S : Num.Solver) (d e : Nat) (objective : LoadObjective T) (lambda : LoadProfile) (t : Int)
    (x : Config T) : Res (Cost DCSuccess DCFailure) := do
  assertP (e == lambda.length)
  assertP (decide (e ≤ d * e))
  let solverD := d * e - e
  let constraints := (List.range e).map fun i zs => do
    let z ← (LoadFractions.new zs d e).get (d - 1) i lambda
    .ok (((-z : ℚ) : WithTop ℚ) : Num.Slack)
  let r ← Num.minimize S (solverObjective d e objective lambda t x) (List.replicate solverD (0, 1))
    (some (initialFractions solverD e x)) constraints
  match objective t x lambda (LoadFractions.new r.1 d e) with
  | .ok o => do
    assertP (decide (r.2 = o.energyCost + o.revenueLoss))
    .ok ⟨r.2, .success ⟨o.energyCost, o.revenueLoss, [[r.1]]⟩⟩
  | .error (.failure f) => .ok ⟨r.2, .failure f⟩
  | .error .panic => .error .panic

/-- `loads.rs:403-433` `apply_loads_over_time`. -/
def applyLoadsOverTime (S : Num.Solver) (d e : Nat) (objective : LoadObjective T) (loads : List LoadProfile)
    (tStart : Int) : CostFn (Config T) DCSuccess DCFailure :=
  CostFn.new tStart (SingleCostFn.certain fun t x =>
    match access loads (unshiftTime t tStart) with
    | some lambda => applyLoads S d e objective lambda t x
    | none => .error .panic)

/-- `loads.rs:189` `PredictedLoadProfile`: samples per type. -/
abbrev PredictedLoadProfile := List (List ℚ)

/-- `loads.rs:34` `MAX_SAMPLE_SIZE`. -/
def maxSampleSize : Nat := 100

/-- `loads.rs:240-257` `sample_load_profiles`. `choose type zs n` are the `n` values chosen at random
(`choose_multiple`). `smallest_sample_size` and `largest_sample_size` (`loads.rs:211-219`) panic without types. Note
that the result has one vector per job type, not per sample. -/
def sampleLoadProfiles (choose : Nat → List ℚ → Nat → List ℚ) (p : PredictedLoadProfile) : Res (List LoadProfile) := do
  let sizes := p.map List.length
  match sizes.min?, sizes.max? with
  | some lo, some hi =>
    let n := min (max lo maxSampleSize) hi
    ((List.range p.length).zip p).mapM fun q => do
      assertP (decide (q.2.length ≥ n))
      .ok (choose q.1 q.2 n)
  | _, _ => .error .panic

/-- `loads.rs:77-79` `into_predicted_load_profile`. -/
def LoadProfile.intoPredicted (l : LoadProfile) : PredictedLoadProfile := l.map fun z => [z]

/-- `loads.rs:442-474` `apply_predicted_loads`. -/
def applyPredictedLoads (S : Num.Solver) (choose : Nat → List ℚ → Nat → List ℚ) (d e : Nat)
    (objective : LoadObjective T) (predicted : List PredictedLoadProfile) (tStart : Int) :
    SingleCostFn (Config T) DCSuccess DCFailure := fun t x =>
  match access predicted (unshiftTime t tStart) with
  | some p => do
    let profiles ← sampleLoadProfiles choose p
    profiles.mapM fun lambda => applyLoads S d e objective lambda t x
  | none => .error .panic

end

/-- `problem.rs:352-367` `SmoothedBalancedLoadOptimization`. -/
structure SBLO (T : Type) where
  d : Int
  tEnd : Int
  bounds : List T
  switchingCost : List ℚ
  hittingCost : List (CostFn ℚ Unit DCFailure)
  load : List T

namespace SBLO
variable {T : Type} [Value T]

/-- `problem.rs:395-406` the cost of one dimension: `x` servers share its load. -/
def dimCost (p : SBLO T) (t : Int) (x : Config T) (lambda : LoadProfile) (zs : LoadFractions) (k : Nat) :
    IRes DCObjective := do
  let loads ← IRes.ofRes (zs.selectLoads lambda k)
  let total ← IRes.ofRes (idx loads 0)
  let xk ← IRes.ofRes (idx x k)
  let c ← safeBalancing (toQ xk) total (IRes.ofRes (do
    let f ← idx p.hittingCost k
    let c ← f.callMean t (total / toQ xk)
    .ok (ECost.mulQ (toQ xk) c.cost)))
  .ok ⟨c, 0⟩

/-- The closure of `problem.rs:389-408`. -/
def objective (p : SBLO T) : LoadObjective T := fun t x lambda zs => do
  IRes.ofRes (assertP (decide (p.d = x.length)))
  sumM ((List.range p.d.toNat).map (p.dimCost t x lambda zs))

/-- `problem.rs:375-413` `hit_cost` of `SmoothedBalancedLoadOptimization`. -/
def hitCost (S : Num.Solver) (p : SBLO T) (t : Int) (x : Config T) : Res (Cost DCSuccess DCFailure) :=
  (applyLoadsOverTime S p.d.toNat 1 p.objective (p.load.map fun l => [toQ l]) 1).callCertainWithinBounds t x
    (withinVec p.bounds)

/-- `problem.rs:369-418` `Problem for SmoothedBalancedLoadOptimization`. -/
def toProb (S : Num.Solver) (p : SBLO T) : Prob T DCSuccess DCFailure where
  d := p.d
  tEnd := p.tEnd
  hitCost := p.hitCost S
  movement prevX x inverted := scaledMovement p.switchingCost x prevX inverted

/-- `convert.rs:226-244` `into_ssco`. -/
def intoSSCO (S : Num.Solver) (p : SBLO T) : SSCO T DCSuccess DCFailure where
  d := p.d
  tEnd := p.tEnd
  bounds := p.bounds
  switchingCost := p.switchingCost
  hittingCost := CostFn.new 1 (SingleCostFn.certain fun t x => p.hitCost S t x)

end SBLO

/-- `convert.rs:252-277` `into_sblo`. -/
def SLO.intoSBLO {T : Type} (p : SLO T) : SBLO T where
  d := p.d
  tEnd := p.tEnd
  bounds := p.bounds
  switchingCost := p.switchingCost
  hittingCost := p.hittingCost.map fun c : ℚ =>
    CostFn.new 1 (SingleCostFn.certain fun _ l =>
      .ok (if l ≤ 1 then Cost.raw (c : ECost) else ⟨⊤, .failure .sloMaxUtilizationExceeded⟩))
  load := p.load

end Soco
