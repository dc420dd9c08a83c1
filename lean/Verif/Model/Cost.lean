import Verif.Model.Basic

/-!
# Model outputs, costs and cost functions

Models `implementation/src/{model/mod,cost}.rs` and the output types of
`implementation/src/model/data_center/mod.rs`.
-/

namespace Soco

/-- `model/mod.rs:23-35` trait `ModelOutputSuccess`. `vertical_merge` may panic (its data center
implementation asserts lengths). -/
class OutSuccess (C : Type) where
  hmerge : C → C → C
  vmerge : C → C → Res C

/-- `model/mod.rs:37-45` trait `ModelOutputFailure`. -/
class OutFailure (D : Type) where
  outside : D

/-- `model/mod.rs:32-35` -/
instance : OutSuccess Unit := ⟨fun _ _ => (), fun _ _ => .ok ()⟩
/-- `model/mod.rs:43-45` -/
instance : OutFailure Unit := ⟨()⟩

/-- `model/mod.rs:49-53` `ModelOutput`. -/
inductive ModelOutput (C D : Type) where
  | success (c : C)
  | failure (d : D)
  | none
deriving DecidableEq, Repr

namespace ModelOutput
variable {C D : Type} [OutSuccess C]

/-- The closure of `model/mod.rs:76-88`, in `horizontal_reduce`. -/
def hstep (result output : ModelOutput C D) : ModelOutput C D :=
  match result with
  | .failure r => .failure r
  | .success r =>
    match output with
    | .failure o => .failure o
    | .success o => .success (OutSuccess.hmerge r o)
    | .none => .success r
  | .none => output

/-- `model/mod.rs:72-90` `horizontal_reduce`: panics on the empty vector. -/
def horizontalReduce : List (ModelOutput C D) → Res (ModelOutput C D)
  | [] => .error .panic
  | o :: os => .ok (os.foldl hstep o)

/-- The closure of `model/mod.rs:96-108`, in `vertical_reduce`. -/
def vstep (result output : ModelOutput C D) : Res (ModelOutput C D) :=
  match result with
  | .failure r => .ok (.failure r)
  | .success r =>
    match output with
    | .failure o => .ok (.failure o)
    | .success o => (OutSuccess.vmerge r o).map .success
    | .none => .ok (.success r)
  | .none => .ok output

/-- `model/mod.rs:92-110` `vertical_reduce`. -/
def verticalReduce : List (ModelOutput C D) → Res (ModelOutput C D)
  | [] => .error .panic
  | o :: os => os.foldlM vstep o

end ModelOutput

/-- `model/data_center/mod.rs:18-28` `DataCenterModelOutputSuccess`. -/
structure DCSuccess where
  energyCost : ECost
  revenueLoss : ECost
  assignments : List (List (List ℚ))

/-- `model/data_center/mod.rs:30-37` `horizontal_merge`. -/
def DCSuccess.hmerge (a b : DCSuccess) : DCSuccess where
  energyCost := a.energyCost + b.energyCost
  revenueLoss := a.revenueLoss + b.revenueLoss
  assignments := a.assignments ++ b.assignments

/-- `model/data_center/mod.rs:40-50` `vertical_merge`: asserts one slot each, then halves the sum. -/
def DCSuccess.vmerge (a b : DCSuccess) : Res DCSuccess :=
  match a.assignments, b.assignments with
  | [as], [bs] => .ok
      { energyCost := ECost.divQ (a.energyCost + b.energyCost) 2
        revenueLoss := ECost.divQ (a.revenueLoss + b.revenueLoss) 2
        assignments := [as ++ bs] }
  | _, _ => .error .panic

instance : OutSuccess DCSuccess := ⟨DCSuccess.hmerge, DCSuccess.vmerge⟩

/-- `model/data_center/mod.rs:68-83` `DataCenterModelOutputFailure` (payload of `InfiniteDelay`
dropped). -/
inductive DCFailure where
  | demandExceedingSupply
  | infiniteDelay
  | loadToInactiveServer
  | outsideDecisionSpace
  | sloMaxUtilizationExceeded
deriving DecidableEq, Repr

/-- `model/data_center/mod.rs:89-93` -/
instance : OutFailure DCFailure := ⟨.outsideDecisionSpace⟩

/-- `cost.rs:17-20` `Cost`. -/
structure Cost (C D : Type) where
  cost : ECost
  output : ModelOutput C D

namespace Cost
variable {C D : Type} [OutSuccess C]

/-- `cost.rs:32-37` `Cost::raw`. -/
def raw (c : ECost) : Cost Unit D := ⟨c, .success ()⟩

/-- `cost.rs:56-67` `Default for Cost`. -/
def dflt : Cost C D := ⟨0, .none⟩

/-- The closure of `cost.rs:74-80` (`Sum for Cost`); `horizontal_reduce` of a two element vector. -/
def add (a b : Cost C D) : Cost C D := ⟨a.cost + b.cost, ModelOutput.hstep a.output b.output⟩

/-- `cost.rs:68-83` `Sum for Cost`, sequentially: `reduce` or the default. -/
def sum : List (Cost C D) → Cost C D
  | [] => dflt
  | c :: cs => cs.foldl add c

/-- `cost.rs:40-49` `Cost::mean`. -/
def mean (costs : List (Cost C D)) : Res (Cost C D) := do
  let c ← meanE (costs.map (·.cost))
  let o ← ModelOutput.verticalReduce (costs.map (·.output))
  .ok ⟨c, o⟩

end Cost

/-- `cost.rs:125-127` `SingleCostFn`: the user's closure, which may panic. -/
abbrev SingleCostFn (X C D : Type) := Int → X → Res (List (Cost C D))

namespace SingleCostFn
variable {X C D : Type} [OutSuccess C]

/-- `cost.rs:134-138` `SingleCostFn::certain`. -/
def certain (f : Int → X → Res (Cost C D)) : SingleCostFn X C D :=
  fun t x => (f t x).map fun c => [c]

/-- `cost.rs:160-176` `call_predictive`. -/
def callPredictive (f : SingleCostFn X C D) (tStart t : Int) (x : X) : Res (List (Cost C D)) := do
  assertP (decide (t ≥ tStart))
  let results ← f t x
  if t = tStart then assertP (results.length == 1)
  assertP (!results.isEmpty)
  .ok results

/-- `cost.rs:148-150` `call_mean`. -/
def callMean (f : SingleCostFn X C D) (tStart t : Int) (x : X) : Res (Cost C D) := do
  Cost.mean (← f.callPredictive tStart t x)

/-- `cost.rs:153-157` `call_certain`. -/
def callCertain (f : SingleCostFn X C D) (tStart t : Int) (x : X) : Res (Cost C D) := do
  let results ← f.callPredictive tStart t x
  match results with
  | [c] => .ok c
  | _ => .error .panic

end SingleCostFn

/-- `cost.rs:185` `CostFn`: a `BTreeMap<i32, SingleCostFn>`, kept as an association list with
strictly ascending keys (see `CostFn.insert`). -/
abbrev CostFn (X C D : Type) := List (Int × SingleCostFn X C D)

namespace CostFn
variable {X C D : Type} [OutSuccess C] [OutFailure D]

/-- `cost.rs:193-195` `CostFn::empty`. -/
def empty : CostFn X C D := []

/-- `cost.rs:206-208` `CostFn::add`: `BTreeMap::insert`, replacing an existing entry of the same
key. -/
def add : CostFn X C D → Int → SingleCostFn X C D → CostFn X C D
  | [], t, f => [(t, f)]
  | (s, g) :: r, t, f =>
    if t < s then (t, f) :: (s, g) :: r
    else if t = s then (t, f) :: r
    else (s, g) :: add r t f

/-- `cost.rs:198-202` `CostFn::new`. -/
def new (t : Int) (f : SingleCostFn X C D) : CostFn X C D := [(t, f)]

/-- `cost.rs:294-301` `get`: asserts `t >= 1`, then takes the last entry with key in `1..=t`. -/
def get (fs : CostFn X C D) (t : Int) : Res (Int × SingleCostFn X C D) := do
  assertP (decide (t ≥ 1))
  match (fs.filter fun e => decide (1 ≤ e.1) && decide (e.1 ≤ t)).getLast? with
  | some e => .ok e
  | none => .error .panic

/-- `cost.rs:211-214` `call_mean`. -/
def callMean (fs : CostFn X C D) (t : Int) (x : X) : Res (Cost C D) := do
  let e ← fs.get t
  e.2.callMean e.1 t x

/-- `cost.rs:217-220` `call_certain`. -/
def callCertain (fs : CostFn X C D) (t : Int) (x : X) : Res (Cost C D) := do
  let e ← fs.get t
  e.2.callCertain e.1 t x

/-- `cost.rs:223-226` `call_predictive`. -/
def callPredictive (fs : CostFn X C D) (t : Int) (x : X) : Res (List (Cost C D)) := do
  let e ← fs.get t
  e.2.callPredictive e.1 t x

/-- The cost returned outside of the decision space, `cost.rs:241-244`. -/
def outsideCost : Cost C D := ⟨⊤, .failure OutFailure.outside⟩

/-- `cost.rs:229-246` `call_mean_within_bounds`; `within` is `DecisionSpace::within`, which may
panic. -/
def callMeanWithinBounds (fs : CostFn X C D) (t : Int) (x : X) (within : X → Res Bool) :
    Res (Cost C D) := do
  if ← within x then fs.callMean t x else .ok outsideCost

/-- `cost.rs:249-266` `call_certain_within_bounds`. -/
def callCertainWithinBounds (fs : CostFn X C D) (t : Int) (x : X) (within : X → Res Bool) :
    Res (Cost C D) := do
  if ← within x then fs.callCertain t x else .ok outsideCost

/-- `cost.rs:269-286` `call_predictive_within_bounds`. -/
def callPredictiveWithinBounds (fs : CostFn X C D) (t : Int) (x : X) (within : X → Res Bool) :
    Res (List (Cost C D)) := do
  if ← within x then fs.callPredictive t x else .ok [outsideCost]

end CostFn

section DecisionSpace
variable {T : Type} [Value T]

/-- `cost.rs:314-324` `within` for `Vec<(T, T)>`. The assertion on the dimension makes the indexing
safe, so the loop is a zip. -/
def withinPairs (bounds : List (T × T)) (x : Config T) : Res Bool :=
  if x.length = bounds.length then
    .ok ((List.zipWith (fun (b : T × T) j => decide (j ≥ b.1) && decide (j ≤ b.2)) bounds x).all id)
  else .error .panic

/-- `cost.rs:325-335` `within` for `Vec<T>`. -/
def withinVec (bounds : List T) (x : Config T) : Res Bool :=
  if x.length = bounds.length then
    .ok ((List.zipWith (fun u j => decide (j ≥ (0 : T)) && decide (j ≤ u)) bounds x).all id)
  else .error .panic

/-- `cost.rs:336-348` `within` for a scalar bound. -/
def withinScalar (bound x : T) : Res Bool :=
  .ok (!(decide (x < 0) || decide (x > bound)))

end DecisionSpace

end Soco
