import Verif.Model.Problem

/-!
# Conversions between problem instances

Models `implementation/src/convert.rs` (the load based conversions are in `Verif.Model.Loads`).
-/

namespace Soco

/-- `convert.rs:38-40` `floor` on fractional vectors (`value.rs:65-67`). -/
def floorVec (x : List ℚ) : List ℤ := x.map fun j => ⌊j⌋

/-- `convert.rs:34-36` `ceil` on fractional vectors (`value.rs:61-63`). -/
def ceilVec (x : List ℚ) : List ℤ := x.map fun j => ⌈j⌉

/-- `convert.rs:52-54`, `convert.rs:382-384` `to`: integral vectors as fractional ones. -/
def toFrac (x : List ℤ) : List ℚ := x.map fun j : ℤ => (j : ℚ)

/-- `convert.rs:396-398` `to_i` on fractional schedules: rounds up. -/
def Schedule.toI (xs : Schedule ℚ) : Schedule ℤ := xs.map ceilVec

/-- `convert.rs:410-412` `to` on integral schedules. -/
def Schedule.toF (xs : Schedule ℤ) : Schedule ℚ := xs.map toFrac

section
variable {C D : Type} [OutSuccess C] [OutFailure D]

/-- `convert.rs:72-80` `into_i` on cost functions. -/
def CostFn.intoI (f : CostFn (Config ℚ) C D) : CostFn (Config ℤ) C D :=
  CostFn.new 1 (SingleCostFn.certain fun t x => f.callCertain t (toFrac x))

/-- `convert.rs:97-126` `into_f` on cost functions. -/
def CostFn.intoF (f : CostFn (Config ℤ) C D) : CostFn (Config ℚ) C D :=
  CostFn.new 1 (SingleCostFn.certain fun t x =>
    match x with
    | [j] =>
      if frac j = 0 then f.callCertain t [⌊j⌋]
      else do
        let lower ← f.callCertain t [⌊j⌋]
        let upper ← f.callCertain t [⌈j⌉]
        let o ← ModelOutput.verticalReduce [lower.output, upper.output]
        .ok ⟨ECost.mulQ ((⌈j⌉ : ℚ) - j) lower.cost + ECost.mulQ (j - (⌊j⌋ : ℚ)) upper.cost, o⟩
    | _ => .error .panic)

/-- `convert.rs:144-152` `into_i` on problems. -/
def SSCO.intoI (p : SSCO ℚ C D) : SSCO ℤ C D where
  d := p.d
  tEnd := p.tEnd
  bounds := floorVec p.bounds
  switchingCost := p.switchingCost
  hittingCost := p.hittingCost.intoI

/-- `convert.rs:170-180` `into_f` on problems. -/
def SSCO.intoF (p : SSCO ℤ C D) : SSCO ℚ C D where
  d := p.d
  tEnd := p.tEnd
  bounds := toFrac p.bounds
  switchingCost := p.switchingCost
  hittingCost := p.hittingCost.intoF

end

section
variable {T C D : Type} [Value T] [OutSuccess C] [OutFailure D]

/-- `convert.rs:191-218` `into_sco`. -/
def SSCO.intoSCO (p : SSCO T C D) : SCO T C D where
  d := p.d
  tEnd := p.tEnd
  bounds := p.bounds.map fun u => (0, u)
  switchingCost := manhattanScaled p.switchingCost
  hittingCost := CostFn.new 1 (SingleCostFn.certain fun t x =>
    if t = p.tEnd then do
      let hitting ← p.toProb.hitCost t x
      let s ← manhattanScaled p.switchingCost x
      .ok ⟨hitting.cost + (s : ECost), hitting.output⟩
    else p.toProb.hitCost t x)

end

section
variable {X C D : Type} [OutSuccess C] [OutFailure D]

/-- `convert.rs:426-438` `reset` on cost functions. -/
def CostFn.reset (f : CostFn X C D) (tStart : Int) : CostFn X C D :=
  CostFn.new 1 fun t j =>
    let shifted := shiftTime t (tStart + 1)
    if shifted ≥ 1 then f.callPredictive shifted j else .ok [Cost.dflt]

end

/-- `convert.rs:448-459` `reset` on problems. -/
def SSCO.reset {T C D : Type} [OutSuccess C] [OutFailure D] (p : SSCO T C D) (tStart : Int) :
    SSCO T C D where
  d := p.d
  tEnd := p.tEnd - tStart
  bounds := p.bounds
  switchingCost := p.switchingCost
  hittingCost := p.hittingCost.reset tStart

/-- `convert.rs:466-468` `reset` on schedules (`tStart as usize`, negative values not modelled). -/
def Schedule.reset {T : Type} [Value T] (xs : Schedule T) (tStart : Nat) : Schedule T :=
  xs.skip tStart

end Soco
