import Verif.Model.Cost

/-!
# Problems and their objective functions

Models `implementation/src/problem.rs` and the norms of `implementation/src/distance.rs` that do not
need square roots or logarithms. `SmoothedBalancedLoadOptimization` is in `Verif.Model.Loads`,
because its hitting cost calls the load balancing optimiser.
-/

namespace Soco

/-- The integers `a..=b` in order. -/
def timeRange (a b : Int) : List Int := (List.range (b - a + 1).toNat).map fun i : Nat => a + (i : Int)

section Movement
variable {T : Type} [Value T]

/-- `problem.rs:501-506` `scalar_movement`. -/
def scalarMovement (j prevJ : T) (inverted : Bool) : T :=
  pos (if inverted then prevJ - j else j - prevJ)

/-- `problem.rs:509-521` `movement`: indexes `prev_x` with the dimensions of `x`, hence panics if
`prev_x` is shorter. -/
def movementVec : Config T → Config T → Bool → Res (Config T)
  | [], _, _ => .ok []
  | _ :: _, [], _ => .error .panic
  | j :: x, pj :: prevX, inverted => do
    let rest ← movementVec x prevX inverted
    .ok (scalarMovement j pj inverted :: rest)

/-- The second half of `problem.rs:533-538`: `switching_cost[k] * delta` summed, panics if
`switching_cost` is shorter than the movement. -/
def weightedSum : List ℚ → Config T → Res ℚ
  | _, [] => .ok 0
  | [], _ :: _ => .error .panic
  | b :: bs, j :: x => do
    let rest ← weightedSum bs x
    .ok (b * toQ j + rest)

/-- `problem.rs:524-539` `scaled_movement`. -/
def scaledMovement (switchingCost : List ℚ) (x prevX : Config T) (inverted : Bool) : Res ℚ := do
  weightedSum switchingCost (← movementVec x prevX inverted)

/-- `distance.rs:22-32` `manhattan`. -/
def manhattan (x : Config T) : ℚ := (x.map fun j => |toQ j|).sum

/-- `distance.rs:35-48` `manhattan_scaled`: panics if there are fewer switching costs than
dimensions. -/
def manhattanScaled : List ℚ → Config T → Res ℚ
  | _, [] => .ok 0
  | [], _ :: _ => .error .panic
  | b :: bs, j :: x => do
    let rest ← manhattanScaled bs x
    .ok (b / 2 * |toQ j| + rest)

end Movement

/-- `problem.rs:26-39` and `problem.rs:78-87`: what every problem provides (`BaseProblem`,
`Problem`). -/
structure Prob (T C D : Type) where
  d : Int
  tEnd : Int
  hitCost : Int → Config T → Res (Cost C D)
  /-- `movement prev_x x inverted` -/
  movement : Config T → Config T → Bool → Res ℚ

/-- `problem.rs:479-498` `sum_over_schedule`. The parallel sum is taken in order; see
`Verif.Props.Outputs` (C14) for the independence of the splitting. -/
def sumOverSchedule {T C D : Type} [Value T] [OutSuccess C] (tEnd : Int) (xs : Schedule T)
    (dflt : Config T) (f : Int → Config T → Config T → Res (Cost C D)) : Res (Cost C D) := do
  let costs ← (timeRange 1 tEnd).mapM fun t =>
    f t ((xs.get (t - 1)).getD dflt) ((xs.get t).getD dflt)
  .ok (Cost.sum costs)

namespace Prob
variable {T C D : Type} [Value T] [OutSuccess C]

/-- `problem.rs:203-208` `_default_config`. A negative dimension (allocation panic) is read as 0. -/
def defaultConfig (p : Prob T C D) : Config T := Config.repeat 0 p.d.toNat

/-- `problem.rs:172-176`: no hitting cost is charged beyond the problem's own horizon. -/
def hitOrNone (p : Prob T C D) (t : Int) (x : Config T) : Res (Cost C D) :=
  if t > p.tEnd then .ok Cost.dflt else p.hitCost t x

/-- The closure of `problem.rs:171-182`: cost of one slot. -/
def slotCost (p : Prob T C D) (alpha : ℚ) (inverted : Bool) (t : Int) (prevX x : Config T) :
    Res (Cost C D) := do
  let hitting ← p.hitOrNone t x
  let m ← p.movement prevX x inverted
  .ok ⟨hitting.cost + ((alpha * m : ℚ) : ECost), hitting.output⟩

/-- `problem.rs:160-183` `_objective_function_with_default`. -/
def objectiveWithDefault' (p : Prob T C D) (xs : Schedule T) (dflt : Config T) (alpha : ℚ)
    (inverted : Bool) (tEnd : Int) : Res (Cost C D) :=
  sumOverSchedule tEnd xs dflt (p.slotCost alpha inverted)

/-- `problem.rs:90-102` `objective_function`. -/
def objective (p : Prob T C D) (xs : Schedule T) : Res (Cost C D) :=
  p.objectiveWithDefault' xs p.defaultConfig 1 false p.tEnd

/-- `problem.rs:106-121` `inverted_objective_function`. -/
def invertedObjective (p : Prob T C D) (xs : Schedule T) : Res (Cost C D) :=
  p.objectiveWithDefault' xs p.defaultConfig 1 true p.tEnd

/-- `problem.rs:124-140` `alpha_unfair_objective_function`. -/
def alphaUnfairObjective (p : Prob T C D) (xs : Schedule T) (alpha : ℚ) : Res (Cost C D) :=
  p.objectiveWithDefault' xs p.defaultConfig alpha false p.tEnd

/-- `problem.rs:143-158` `objective_function_with_default`. -/
def objectiveWithDefault (p : Prob T C D) (xs : Schedule T) (dflt : Config T) : Res (Cost C D) :=
  p.objectiveWithDefault' xs dflt 1 false p.tEnd

/-- `problem.rs:186-201` `total_movement`. -/
def totalMovement (p : Prob T C D) (xs : Schedule T) (inverted : Bool) : Res ECost := do
  let c ← sumOverSchedule (C := Unit) (D := Unit) p.tEnd xs p.defaultConfig fun _ prevX x => do
    let m ← p.movement prevX x inverted
    .ok (Cost.raw ((m : ℚ) : ECost))
  .ok c.cost

end Prob

/-- `problem.rs:268-281` `SmoothedConvexOptimization`. The norm may panic (`manhattan_scaled`
indexes). -/
structure SCO (T C D : Type) where
  d : Int
  tEnd : Int
  bounds : List (T × T)
  switchingCost : Config T → Res ℚ
  hittingCost : CostFn (Config T) C D

/-- `problem.rs:311-323` `SimplifiedSmoothedConvexOptimization`. -/
structure SSCO (T C D : Type) where
  d : Int
  tEnd : Int
  bounds : List T
  switchingCost : List ℚ
  hittingCost : CostFn (Config T) C D

/-- `problem.rs:428-441` `SmoothedLoadOptimization`. -/
structure SLO (T : Type) where
  d : Int
  tEnd : Int
  bounds : List T
  switchingCost : List ℚ
  hittingCost : List ℚ
  load : List T

section
variable {T C D : Type} [Value T] [OutSuccess C] [OutFailure D]

/-- `problem.rs:283-299` `Problem for SmoothedConvexOptimization`. -/
def SCO.toProb (p : SCO T C D) : Prob T C D where
  d := p.d
  tEnd := p.tEnd
  hitCost t x := p.hittingCost.callMeanWithinBounds t x (withinPairs p.bounds)
  movement prevX x inverted := do
    assertP (!inverted)
    p.switchingCost (Config.sub x prevX)

/-- `problem.rs:325-340` `Problem for SimplifiedSmoothedConvexOptimization`. -/
def SSCO.toProb (p : SSCO T C D) : Prob T C D where
  d := p.d
  tEnd := p.tEnd
  hitCost t x := p.hittingCost.callMeanWithinBounds t x (withinVec p.bounds)
  movement prevX x inverted := scaledMovement p.switchingCost x prevX inverted

end

/-- The sum of `problem.rs:462-468`: `hitting_cost[k] * x[k]` for `k` in `0..d`, panicking if one of
the vectors is shorter than `d`. -/
def sloSum {T : Type} [Value T] : Nat → List ℚ → Config T → Res ℚ
  | 0, _, _ => .ok 0
  | n + 1, c :: cs, j :: x => do
    let rest ← sloSum n cs x
    .ok (c * toQ j + rest)
  | _ + 1, _, _ => .error .panic

/-- `problem.rs:448-471` `hit_cost` of `SmoothedLoadOptimization`. `t as usize - 1` for `t < 1` panics.
Note that the bounds are not consulted. -/
def SLO.hitCost {T : Type} [Value T] (p : SLO T) (t : Int) (x : Config T) :
    Res (Cost Unit DCFailure) := do
  match access p.load t with
  | none => .error .panic
  | some l =>
    if Config.total x < l then .ok ⟨⊤, .failure .demandExceedingSupply⟩
    else do
      let s ← sloSum p.d.toNat p.hittingCost x
      .ok (Cost.raw (s : ECost))

/-- `problem.rs:443-476` `Problem for SmoothedLoadOptimization`. -/
def SLO.toProb {T : Type} [Value T] (p : SLO T) : Prob T Unit DCFailure where
  d := p.d
  tEnd := p.tEnd
  hitCost := p.hitCost
  movement prevX x inverted := scaledMovement p.switchingCost x prevX inverted

/-- `problem.rs:255-263` `Online`. -/
structure Online (P : Type) where
  p : P
  w : Int

end Soco
