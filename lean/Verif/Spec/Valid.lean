import Verif.Model.Problem

/-! # Specification: documented constraints on problems and schedules -/

namespace Soco.Spec
open Soco
variable {T C D : Type} [Value T]

/-- Constraints on SCO instances. -/
def ValidSCO (p : SCO T C D) : Prop :=
  0 < p.d ∧ 0 ≤ p.tEnd ∧ (p.bounds.length : Int) = p.d

/-- Constraints on SSCO instances. -/
def ValidSSCO (p : SSCO T C D) : Prop :=
  0 < p.d ∧ 0 ≤ p.tEnd ∧ (p.bounds.length : Int) = p.d ∧ (p.switchingCost.length : Int) = p.d ∧
  (∀ u ∈ p.bounds, 0 < u) ∧ (∀ b ∈ p.switchingCost, 0 < b)

/-- Constraints on SLO instances (the number of hitting costs is treated separately, as the code does
not check it). -/
def ValidSLO (p : SLO T) : Prop :=
  0 < p.d ∧ 0 ≤ p.tEnd ∧ (p.bounds.length : Int) = p.d ∧ (p.switchingCost.length : Int) = p.d ∧
  p.tEnd ≤ p.load.length ∧
  (∀ u ∈ p.bounds, 0 < u) ∧ (∀ b ∈ p.switchingCost, 0 < b) ∧
  (∀ k : Nat, (k : Int) < p.d → ∀ c, p.hittingCost[k]? = some c → 0 ≤ c) ∧
  -- later dimensions have strictly smaller hitting costs and strictly larger switching costs
  (∀ k l : Nat, k < l → (l : Int) < p.d → ∀ ck cl, p.hittingCost[k]? = some ck →
    p.hittingCost[l]? = some cl → cl < ck) ∧
  p.switchingCost.Pairwise (· < ·) ∧
  (∀ t : Nat, (t : Int) < p.tEnd → ∀ l, p.load[t]? = some l → 0 ≤ l)

end Soco.Spec
