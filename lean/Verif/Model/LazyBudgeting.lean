import Verif.Model.Loads
import Verif.Model.MultiGraph
import Verif.Model.Streaming

/-!
# Lazy budgeting for smoothed load optimisation

Models `implementation/src/algorithms/online/multi_dimensional/lazy_budgeting/smoothed_load_optimization.rs`.

Simplifications: lanes are natural numbers, horizons unbounded integers (`i32` in the code). The randomly sampled
`gamma` is a parameter.
-/

namespace Soco

/-- `offline/mod.rs:79-87` `OfflineOptions::default`. -/
def OfflineOptions.dflt : OfflineOptions := ⟨false, 1, none⟩

namespace Lb

/-- `smoothed_load_optimization.rs:26-35` `Memory`. -/
structure Memory where
  lanes : List Nat
  horizons : List Int
  gamma : ℚ
  cache : Option (Cache Multi.Vertex)

/-- `smoothed_load_optimization.rs:44-52` `default`, for a sampled `gamma`. -/
def Memory.dflt (gamma : ℚ) (o : Online (SLO ℤ)) : Memory where
  lanes := List.replicate o.p.bounds.sum.toNat 0
  horizons := List.replicate o.p.bounds.sum.toNat 0
  gamma := gamma
  cache := none

/-- `smoothed_load_optimization.rs:159-173` `next_time_horizon`. With a hitting cost of zero the quotient is infinite,
its cast saturates, and the addition of the time slot overflows: this is a panic here. -/
def nextTimeHorizon (hittingCost switchingCost : List ℚ) (k : Nat) (gamma : ℚ) (randomized : Bool) : Res Int :=
  if k = 0 then .ok 0
  else do
    let b ← idx switchingCost (k - 1)
    let l ← idx hittingCost (k - 1)
    if l = 0 then .error .panic else .ok ⌊(if randomized then gamma else 1) * b / l⌋

/-- The loop body of `smoothed_load_optimization.rs:177-181`. -/
def collectLane (config : Config ℤ) (lane : Nat) : Res (Config ℤ) :=
  if lane > 0 then do
    let j ← idx config (lane - 1)
    .ok (config.set (lane - 1) (j + 1))
  else .ok config

/-- `smoothed_load_optimization.rs:175-183` `collect_config`. -/
def collectConfig (d : Nat) (lanes : List Nat) : Res (Config ℤ) := lanes.foldlM collectLane (List.replicate d 0)

/-- `smoothed_load_optimization.rs:202-204` `active_lanes`, with `n = to - from + 1` summands. -/
def activeLanes (x : Config ℤ) (fr n : Nat) : Res ℤ := sumM ((List.range' fr n).map fun k => idx x (k - 1))

/-- `smoothed_load_optimization.rs:190-195`, the assignments to `lane`. -/
def buildLane (x : Config ℤ) (d k : Nat) : Res Nat :=
  (List.range' 1 d).foldlM (fun lane j => do
    let a ← activeLanes x j (d + 1 - j)
    .ok (if a ≥ (k : ℤ) + 1 then j else lane)) 0

/-- `smoothed_load_optimization.rs:185-199` `build_lanes`. -/
def buildLanes (x : Config ℤ) (d bound : Nat) : Res (List Nat) :=
  (List.range bound).mapM fun k : Nat => do
    let a ← activeLanes x 1 d
    if (k : ℤ) + 1 ≤ a then buildLane x d k else .ok 0

/-- `smoothed_load_optimization.rs:206-225` `find_optimal_lanes`. -/
def findOptimalLanes (S : Num.Solver) (cache : Option (Cache Multi.Vertex)) (p : SLO ℤ) (bound : Nat) :
    Res (List Nat × Cache Multi.Vertex) := do
  let result ← Multi.optimalGraphSearch (p.intoSBLO.intoSSCO S) cache .dflt
  let x ← Schedule.now result.path.xs
  let lanes ← buildLanes x p.d.toNat bound
  .ok (lanes, result.cache)

/-- The closure of `smoothed_load_optimization.rs:108-135`. -/
def updateLane (p : SLO ℤ) (t : Int) (gamma : ℚ) (randomized : Bool) (prevLanes : List Nat) (prevHorizons : List Int)
    (optimalLanes : List Nat) (j : Nat) : Res (Nat × Int) := do
  let pl ← idx prevLanes j
  let ol ← idx optimalLanes j
  let ph ← idx prevHorizons j
  let h ← nextTimeHorizon p.hittingCost p.switchingCost ol gamma randomized
  .ok (if pl < ol ∨ t ≥ ph then (ol, t + h) else (pl, max ph (t + h)))

/-- `IsSorted::is_sorted` on the reversed iterator, `smoothed_load_optimization.rs:143`. -/
def descending (hs : List Int) : Bool := (hs.zip hs.tail).all fun q => decide (q.2 ≤ q.1)

/-- `smoothed_load_optimization.rs:85-157` `lb`. -/
def lb (S : Num.Solver) (randomized : Bool) (o : Online (SLO ℤ)) (t : Int) (_ : Schedule ℤ) (m : Memory) :
    Res (Config ℤ × Option Memory) := do
  assertR (decide (o.w = 0)) (.unsupportedPredictionWindow o.w)
  let bound := o.p.bounds.sum.toNat
  let opt ← findOptimalLanes S m.cache o.p bound
  let ls ← (List.range bound).mapM (updateLane o.p t m.gamma randomized m.lanes m.horizons opt.1)
  assertP (descending (ls.map Prod.snd))
  let config ← collectConfig o.p.d.toNat (ls.map Prod.fst)
  .ok (config, some ⟨ls.map Prod.fst, ls.map Prod.snd, m.gamma, some opt.2⟩)

/-- Lazy budgeting as an online algorithm, `gamma` being the sampled factor. -/
def alg (S : Num.Solver) (gamma : ℚ) (randomized : Bool) : OnlineAlgorithm (SLO ℤ) ℤ Memory where
  default := Memory.dflt gamma
  call := lb S randomized

end Lb

end Soco
