import Verif.Model.UniGraph
import Verif.Model.LazyBudgeting

/-!
# 32-bit integers

The other modules model `i32` by unbounded integers. This one models the places where intermediate results can leave the range of
`i32`, with overflow checks as in a debug build: an overflow is a panic. Differences of non-negative numbers always fit
(`I32.sub_fits`), so movements need no checks.
-/

namespace Soco

namespace I32

/-- The range of `i32`. -/
def Fits (z : ℤ) : Prop := -2 ^ 31 ≤ z ∧ z ≤ 2 ^ 31 - 1

instance (z : ℤ) : Decidable (Fits z) := by unfold Fits; infer_instance

/-- A checked result. -/
def chk (z : ℤ) : Res ℤ := if Fits z then .ok z else .error .panic

/-- Checked addition. -/
def add (a b : ℤ) : Res ℤ := chk (a + b)

/-- Checked subtraction. -/
def sub (a b : ℤ) : Res ℤ := chk (a - b)

/-- Checked multiplication. -/
def mul (a b : ℤ) : Res ℤ := chk (a * b)

/-- `2_i32.pow(n)`. -/
def pow2 (n : Nat) : Res ℤ := chk (2 ^ n)

/-- `as i32` on a float: saturates. -/
def sat (z : ℤ) : ℤ := max (-2 ^ 31) (min z (2 ^ 31 - 1))

/-- `utils.rs:83-85` `shift_time`. -/
def shiftTime (t tStart : ℤ) : Res ℤ := do
  let z ← add t tStart
  sub z 1

/-- `utils.rs:88-90` `unshift_time`. -/
def unshiftTime (t tStart : ℤ) : Res ℤ := do
  let z ← sub t tStart
  add z 1

/-- `config.rs:69-71` `Config::total`, `smoothed_load_optimization.rs:99` the sum of the bounds. -/
def total (x : List ℤ) : Res ℤ := x.foldlM add 0

end I32

namespace Uni

variable {C D : Type} [OutSuccess C] [OutFailure D]

/-- `optimal_graph_search.rs:111-115` `select_initial_rows` on `i32`. -/
def initialRows32 (m : ℤ) : Res (List ℤ) :=
  [0, 1, 2, 3, 4].mapM fun e : ℤ => do
    let z ← I32.mul e m
    .ok (z / 4)

/-- The candidates of `optimal_graph_search.rs:122-124` on `i32`. -/
def nextRow32 (j : ℤ) (k : Nat) (e : ℤ) : Res ℤ := do
  let q ← I32.pow2 k
  let z ← I32.mul e q
  I32.add j z

/-- `optimal_graph_search.rs:117-128` `select_next_rows` on `i32`. -/
def nextRows32 (m : ℤ) (xs : Schedule ℤ) (k : Nat) (t : Int) : Res (List ℤ) := do
  let x ← idx xs (t.toNat - 1)
  let j ← idx x 0
  let js ← [-2, -1, 0, 1, 2].mapM (nextRow32 j k)
  .ok (js.filter fun j => decide (0 ≤ j) && decide (j ≤ m))

/-- The loop of `optimal_graph_search.rs:65-75` on `i32`. -/
def search32 (p : SSCO ℤ C D) (m : ℤ) (alpha : ℚ) (inverted : Bool) (xStart : ℤ) : Res Path := do
  let path ← findSchedule p (fun _ => initialRows32 m) alpha inverted xStart
  (List.range (kInit m)).reverse.foldlM
    (fun path k => findSchedule p (nextRows32 m path.xs k) alpha inverted xStart) path

/-- `optimal_graph_search.rs:55-57` and the power of `optimal_graph_search.rs:89` on `i32`. -/
def roundBound32 (p : SSCO ℤ C D) : Res (SSCO ℤ C D) := do
  let m ← idx p.bounds 0
  if isPowOf2 m.toNat then .ok p else do
    let _ ← I32.pow2 (Nat.clog 2 m.toNat)
    makePowOf2 p

/-- `optimal_graph_search.rs:43-78` `optimal_graph_search` on `i32`. -/
def optimalGraphSearch32 (p : SSCO ℤ C D) (xStart : ℤ) (o : OfflineOptions) : Res Path := do
  assertR o.l.isNone .unsupportedLConstrainedMovement
  assertR (decide (p.d = 1)) (.unsupportedProblemDimension p.d)
  let p ← roundBound32 p
  let m ← idx p.bounds 0
  search32 p m o.alpha o.inverted xStart

end Uni

namespace Lb

/-- `smoothed_load_optimization.rs:159-173` `next_time_horizon` on `i32`: the cast saturates, also if the quotient is infinite because
the hitting cost is zero. (Zero divided by zero does not occur: switching costs are positive; a factor `gamma` of zero is not modelled
in that case.) -/
def nextTimeHorizon32 (hittingCost switchingCost : List ℚ) (k : Nat) (gamma : ℚ) (randomized : Bool) : Res ℤ :=
  if k = 0 then .ok 0
  else do
    let b ← idx switchingCost (k - 1)
    let l ← idx hittingCost (k - 1)
    .ok (if l = 0 then 2 ^ 31 - 1 else I32.sat ⌊(if randomized then gamma else 1) * b / l⌋)

/-- The closure of `smoothed_load_optimization.rs:108-135` on `i32`. -/
def updateLane32 (p : SLO ℤ) (t : Int) (gamma : ℚ) (randomized : Bool) (prevLanes : List Nat) (prevHorizons : List Int)
    (optimalLanes : List Nat) (j : Nat) : Res (Nat × Int) := do
  let pl ← idx prevLanes j
  let ol ← idx optimalLanes j
  let ph ← idx prevHorizons j
  let h ← nextTimeHorizon32 p.hittingCost p.switchingCost ol gamma randomized
  let th ← I32.add t h
  .ok (if pl < ol ∨ t ≥ ph then (ol, th) else (pl, max ph th))

/-- `smoothed_load_optimization.rs:85-157` `lb` on `i32`. -/
def lb32 (S : Num.Solver) (randomized : Bool) (o : Online (SLO ℤ)) (t : Int) (_ : Schedule ℤ) (m : Memory) :
    Res (Config ℤ × Option Memory) := do
  assertR (decide (o.w = 0)) (.unsupportedPredictionWindow o.w)
  let b ← I32.total o.p.bounds
  let opt ← findOptimalLanes S m.cache o.p b.toNat
  let ls ← (List.range b.toNat).mapM (updateLane32 o.p t m.gamma randomized m.lanes m.horizons opt.1)
  assertP (descending (ls.map Prod.snd))
  let config ← collectConfig o.p.d.toNat (ls.map Prod.fst)
  .ok (config, some ⟨ls.map Prod.fst, ls.map Prod.snd, m.gamma, some opt.2⟩)

end Lb

end Soco
