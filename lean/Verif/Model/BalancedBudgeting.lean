import Verif.Model.LazyBudgeting
import Verif.Model.Verifiers

/-!
# Lazy budgeting for smoothed balanced-load optimisation

Models `implementation/src/algorithms/online/multi_dimensional/lazy_budgeting/smoothed_balanced_load_optimization.rs`
and the verifier of balanced-load problems.

Simplifications: numbers of servers and slots are unbounded integers (`i32` in the code).
-/

namespace Soco

/-- `verifiers.rs:183-235` `verify` of SBLO. -/
def SBLO.verify {T : Type} [Value T] (p : SBLO T) : Res Unit := do
  assertValidity (decide (p.d > 0))
  assertValidity (decide (p.tEnd ≥ 0))
  assertValidity (decide ((p.bounds.length : Int) = p.d))
  assertValidity (decide ((p.switchingCost.length : Int) = p.d))
  assertValidity (decide ((p.load.length : Int) ≥ p.tEnd))
  forRange p.d.toNat fun k => do
    assertValidity (decide ((← idx p.bounds k) > 0))
    assertValidity (decide ((← idx p.switchingCost k) > 0))
  forRange p.tEnd.toNat fun t => do
    assertValidity (decide ((← idx p.load t) ≥ 0))

/-- `problem.rs:34-37, 54, 70` `set_t_end` of SBLO. -/
def SBLO.setTEnd {T : Type} (p : SBLO T) (t : Int) : SBLO T := { p with tEnd := t }

namespace Bb

/-- `smoothed_balanced_load_optimization.rs:249-254` `AlgBMemory`; `default` is derived. -/
structure AlgBMemory where
  initTimes : List (List ℤ) := []
  cache : Option (Cache Multi.Vertex) := none

/-- `smoothed_balanced_load_optimization.rs:28-38` `Memory`. -/
structure Memory where
  load : List ℤ
  hittingCost : List (CostFn ℚ Unit DCFailure)
  modM : Schedule ℤ × Option AlgBMemory

/-- `smoothed_balanced_load_optimization.rs:51-60` `default`. -/
def Memory.dflt (o : Online (SBLO ℤ)) : Memory where
  load := []
  hittingCost := (List.range o.p.d.toNat).map fun _ => CostFn.empty
  modM := ([], none)

/-- `smoothed_balanced_load_optimization.rs:324-333` `cumulative_idle_hitting_cost`. -/
def cumulativeIdleHittingCost (f : CostFn ℚ Unit DCFailure) (fr last : Int) : Res ECost :=
  sumM ((timeRange fr last).map fun t : Int => do
    let c ← f.callCertain t 0
    .ok c.cost)

/-- `smoothed_balanced_load_optimization.rs:301-322` `deactivated_quantity`. -/
def deactivatedQuantity (f : CostFn ℚ Unit DCFailure) (switchingCost : ℚ) (initTimes : List (List ℤ)) (tNow : Int)
    (k : Nat) : Res ℤ :=
  sumM ((timeRange 1 (tNow - 1)).map fun t : Int => do
    let cum ← cumulativeIdleHittingCost f (t + 1) (tNow - 1)
    let l ← f.callCertain tNow 0
    if cum ≤ (switchingCost : ECost) ∧ (switchingCost : ECost) < cum + l.cost then do
      let row ← idx initTimes (t - 1).toNat
      idx row k
    else .ok 0)

/-- `smoothed_balanced_load_optimization.rs:335-346` `find_optimal_config`. -/
def findOptimalConfig (S : Num.Solver) (cache : Option (Cache Multi.Vertex)) (p : SBLO ℤ) :
    Res (Config ℤ × Cache Multi.Vertex) := do
  let result ← Multi.optimalGraphSearch (p.intoSSCO S) cache .dflt
  let x ← Schedule.now result.path.xs
  .ok (x, result.cache)

/-- The closure of `smoothed_balanced_load_optimization.rs:275-289`. -/
def stepDim (p : SBLO ℤ) (t : Int) (prevX optX : Config ℤ) (initTimes : List (List ℤ)) (k : Nat) : Res (ℤ × ℤ) := do
  let prev ← idx prevX k
  let f ← idx p.hittingCost k
  let b ← idx p.switchingCost k
  let off ← deactivatedQuantity f b initTimes t k
  let opt ← idx optX k
  .ok (if prev - off < opt then (opt - (prev - off), opt) else (0, prev - off))

/-- `smoothed_balanced_load_optimization.rs:256-299` `alg_b`. -/
def algB (S : Num.Solver) (o : Online (SBLO ℤ)) (t : Int) (xs : Schedule ℤ) (m : AlgBMemory) :
    Res (Config ℤ × Option AlgBMemory) := do
  let opt ← findOptimalConfig S m.cache o.p
  let prevX := xs.getLastD (Config.repeat 0 o.p.d.toNat)
  let r ← (List.range o.p.d.toNat).mapM (stepDim o.p t prevX opt.1 m.initTimes)
  .ok (r.map Prod.snd, some ⟨m.initTimes ++ [r.map Prod.fst], some opt.2⟩)

/-- Algorithm B as an online algorithm. -/
def algBAlg (S : Num.Solver) : OnlineAlgorithm (SBLO ℤ) ℤ AlgBMemory where
  default _ := {}
  call := algB S

/-- `smoothed_balanced_load_optimization.rs:154-168` `determine_sub_time_slots`. An infinite number of slots (which the
cast to `i32` would saturate) is a panic here. -/
def determineSubTimeSlots (p : SBLO ℤ) (t : Int) (epsilon : ℚ) : Res Int := do
  let fs ← (List.range p.d.toNat).mapM fun k => do
    let f ← idx p.hittingCost k
    let l ← f.callCertain t 0
    let b ← idx p.switchingCost k
    .ok (ECost.divQ l.cost b)
  match fs.max? with
  | none => .error .panic
  | some ⊤ => .error .panic
  | some (some q) => if epsilon = 0 then .error .panic else .ok ⌈(p.d : ℚ) / epsilon * q⌉

/-- The cost function registered in `smoothed_balanced_load_optimization.rs:189-199`. -/
def subCost (raw : CostFn ℚ Unit DCFailure) (t n uInit uEnd : Int) : SingleCostFn ℚ Unit DCFailure :=
  SingleCostFn.certain fun u x => do
    assertP (decide (uInit ≤ u ∧ u ≤ uEnd))
    let c ← raw.callCertain t x
    .ok ⟨ECost.divQ c.cost n, c.output⟩

/-- `smoothed_balanced_load_optimization.rs:171-216` `modify_problem`; returns the loads and the cost functions,
which are passed by reference in the code, beside the problem. -/
def modifyProblem (p : SBLO ℤ) (load : List ℤ) (hittingCost : List (CostFn ℚ Unit DCFailure)) (t n uInit uEnd : Int) :
    Res (SBLO ℤ × List ℤ × List (CostFn ℚ Unit DCFailure)) := do
  assertP (decide (uEnd - uInit + 1 = n))
  let hc ← (List.range p.d.toNat).mapM fun k => do
    let raw ← idx p.hittingCost k
    let old ← idx hittingCost k
    .ok (old.add uInit (subCost raw t n uInit uEnd))
  let hc := hc ++ hittingCost.drop p.d.toNat
  match access p.load t with
  | none => .error .panic
  | some l =>
    assertP (decide (0 ≤ n))
    let load := load ++ List.replicate n.toNat l
    assertP (decide ((load.length : Int) = uEnd))
    .ok (⟨p.d, uInit, p.bounds, p.switchingCost, hc, load⟩, load, hc)

/-- The cost of a sub time slot, `smoothed_balanced_load_optimization.rs:227-236`. -/
def subHit (S : Num.Solver) (p : SBLO ℤ) (xs : Schedule ℤ) (u : Int) : Res ECost :=
  match access xs u with
  | none => .error .panic
  | some x => do
    let c ← p.hitCost S u x
    .ok c.cost

/-- `smoothed_balanced_load_optimization.rs:218-245` `determine_config`. -/
def determineConfig (S : Num.Solver) (p : SBLO ℤ) (xs : Schedule ℤ) (uInit uEnd : Int) : Res (Config ℤ) := do
  let c ← subHit S p xs uInit
  let best ← (timeRange (uInit + 1) uEnd).foldlM (fun (m : Int × ECost) u => do
    let c ← subHit S p xs u
    .ok (if c < m.2 then (u, c) else m)) (uInit, c)
  match access xs best.1 with
  | none => .error .panic
  | some x => .ok x

/-- `smoothed_balanced_load_optimization.rs:88-151` `lb`. The loop of `offline_stream_from` ends after at most `n + 1`
iterations (`Bb.stream_fuel`), so the case `none` does not occur. -/
def lb (S : Num.Solver) (epsilon : ℚ) (o : Online (SBLO ℤ)) (t : Int) (_ : Schedule ℤ) (m : Memory) :
    Res (Config ℤ × Option Memory) := do
  assertR (decide (o.w = 0)) (.unsupportedPredictionWindow o.w)
  let n ← determineSubTimeSlots o.p t epsilon
  let uInit := (m.load.length : Int) + 1
  let uEnd := uInit + n - 1
  let q ← modifyProblem o.p m.load m.hittingCost t n uInit uEnd
  match offlineStreamFrom SBLO.tEnd SBLO.setTEnd (Online.verify SBLO.verify) (algBAlg S) uEnd (n.toNat + 1) ⟨q.1, 0⟩
      m.modM.1 m.modM.2 with
  | none => .error .panic
  | some r => do
    let r ← r
    let config ← determineConfig S r.1.p r.2.1 uInit uEnd
    .ok (config, some ⟨q.2.1, q.2.2, (r.2.1, r.2.2)⟩)

/-- Lazy budgeting as an online algorithm. -/
def alg (S : Num.Solver) (epsilon : ℚ) : OnlineAlgorithm (SBLO ℤ) ℤ Memory where
  default := Memory.dflt
  call := lb S epsilon

end Bb

end Soco
