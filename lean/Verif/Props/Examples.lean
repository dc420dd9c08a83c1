import Verif.Model.Convert

/-! Concrete instances used to show that the hypotheses of the theorems are met. -/

namespace Soco.Ex
open Soco

/-- Two server types with bounds 2 and 3; load `t` must be served, cost `x₁ + 2 x₂`. -/
def hit2 (t : Int) (x : Config ℤ) : ECost :=
  if x.sum < t then ⊤ else (((x.getD 0 0 + 2 * x.getD 1 0 : ℤ) : ℚ) : ECost)

/-- Two-dimensional integral problem over three slots. -/
def ssco2 : SSCO ℤ Unit Unit where
  d := 2
  tEnd := 3
  bounds := [2, 3]
  switchingCost := [3, 1/2]
  hittingCost := CostFn.new 1 (SingleCostFn.certain fun t x => .ok (Cost.raw (hit2 t x)))

/-- A schedule for `ssco2`. -/
def xs2 : Schedule ℤ := [[1, 0], [2, 0], [1, 2]]

/-- One-dimensional integral problem with bound 5 over four slots, cost `|x - t|`. -/
def ssco1 : SSCO ℤ Unit Unit where
  d := 1
  tEnd := 4
  bounds := [5]
  switchingCost := [2]
  hittingCost := CostFn.new 1 (SingleCostFn.certain fun t x =>
    .ok (Cost.raw (((|x.getD 0 0 - t| : ℤ) : ℚ) : ECost)))

/-- A fractional variant of `ssco1`. -/
def ssco1f : SSCO ℚ Unit Unit where
  d := 1
  tEnd := 4
  bounds := [5]
  switchingCost := [2]
  hittingCost := CostFn.new 1 (SingleCostFn.certain fun t x =>
    .ok (Cost.raw ((|x.getD 0 0 - (t : ℚ)| : ℚ) : ECost)))

/-- Smoothed load optimisation with two server types. -/
def slo2 : SLO ℤ where
  d := 2
  tEnd := 3
  bounds := [4, 4]
  switchingCost := [1, 3]
  hittingCost := [2, 1]
  load := [1, 3, 2]

end Soco.Ex
