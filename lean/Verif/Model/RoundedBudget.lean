import Verif.Model.LazyBudgeting

/-!
# Lazy budgeting with rounded time horizons

Models `implementation/src/algorithms/online/multi_dimensional/lazy_budgeting/smoothed_load_optimization.rs` once more, but the product
and the quotient of `next_time_horizon` are rounded as by `f64`. The costs in the search for an optimal plan are exact as in
`Model/LazyBudgeting`.
-/

namespace Soco
namespace Lb.Rounded

/-- `smoothed_load_optimization.rs:159-173` `next_time_horizon`: the product and the quotient are rounded. A hitting cost of zero is a
panic as in `Lb.nextTimeHorizon`. -/
def nextTimeHorizon (fl : ℚ → ℚ) (hittingCost switchingCost : List ℚ) (k : Nat) (gamma : ℚ) (randomized : Bool) : Res Int :=
  if k = 0 then .ok 0
  else do
    let b ← idx switchingCost (k - 1)
    let l ← idx hittingCost (k - 1)
    if l = 0 then .error .panic else .ok ⌊fl (fl ((if randomized then gamma else 1) * b) / l)⌋

/-- The closure of `smoothed_load_optimization.rs:108-135`. -/
def updateLane (fl : ℚ → ℚ) (p : SLO ℤ) (t : Int) (gamma : ℚ) (randomized : Bool) (prevLanes : List Nat) (prevHorizons : List Int)
    (optimalLanes : List Nat) (j : Nat) : Res (Nat × Int) := do
  let pl ← idx prevLanes j
  let ol ← idx optimalLanes j
  let ph ← idx prevHorizons j
  let h ← nextTimeHorizon fl p.hittingCost p.switchingCost ol gamma randomized
  .ok (if pl < ol ∨ t ≥ ph then (ol, t + h) else (pl, max ph (t + h)))

/-- `smoothed_load_optimization.rs:85-157` `lb`. -/
def lb (fl : ℚ → ℚ) (S : Num.Solver) (randomized : Bool) (o : Online (SLO ℤ)) (t : Int) (_ : Schedule ℤ) (m : Memory) :
    Res (Config ℤ × Option Memory) := do
  assertR (decide (o.w = 0)) (.unsupportedPredictionWindow o.w)
  let bound := o.p.bounds.sum.toNat
  let opt ← findOptimalLanes S m.cache o.p bound
  let ls ← (List.range bound).mapM (updateLane fl o.p t m.gamma randomized m.lanes m.horizons opt.1)
  assertP (descending (ls.map Prod.snd))
  let config ← collectConfig o.p.d.toNat (ls.map Prod.fst)
  .ok (config, some ⟨ls.map Prod.fst, ls.map Prod.snd, m.gamma, some opt.2⟩)

/-- Lazy budgeting as an online algorithm, `gamma` being the sampled factor. -/
def alg (fl : ℚ → ℚ) (S : Num.Solver) (gamma : ℚ) (randomized : Bool) : OnlineAlgorithm (SLO ℤ) ℤ Memory where
  default := Memory.dflt gamma
  call := lb fl S randomized

end Lb.Rounded
end Soco
