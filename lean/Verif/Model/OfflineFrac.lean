import Verif.Model.MultiGraph
import Verif.Model.Numerics

/-!
# Offline algorithms for fractional problems

Models `implementation/src/algorithms/offline/multi_dimensional/convex_optimization.rs` and `static_fractional.rs`.
-/

namespace Soco
namespace OfflineFrac
open Num

variable {C D : Type} [OutSuccess C] [OutFailure D]

/-- `convex_optimization.rs:38-44`: the bounds, repeated for every slot. -/
def coBox (p : SCO ℚ C D) : List (ℚ × ℚ) :=
  (Schedule.buildRaw p.tEnd.toNat (p.bounds.map Prod.fst)).zip (Schedule.buildRaw p.tEnd.toNat (p.bounds.map Prod.snd))

/-- `convex_optimization.rs:46-58`: the objective. -/
def coObjective (p : SCO ℚ C D) (alpha : ℚ) (raw : List ℚ) : Res ECost := do
  let xs ← Schedule.fromRaw p.d.toNat p.tEnd.toNat raw
  let c ← p.toProb.alphaUnfairObjective xs alpha
  .ok c.cost

/-- `convex_optimization.rs:62-70`: the constraint, met if not positive. -/
def coConstraint (p : SCO ℚ C D) (l : ℚ) (raw : List ℚ) : Res Slack := do
  let xs ← Schedule.fromRaw p.d.toNat p.tEnd.toNat raw
  let m ← p.toProb.totalMovement xs false
  .ok ((m.map (· - l) : ECost) : Slack)

/-- `convex_optimization.rs:60-73`. -/
def coConstraints (p : SCO ℚ C D) : Option ℚ → List (List ℚ → Res Slack)
  | some l => [coConstraint p l]
  | none => []

/-- `convex_optimization.rs:24-77` `co`. -/
def co (S : Solver) (p : SCO ℚ C D) (o : OfflineOptions) : Res (Schedule ℚ) := do
  assertR (!o.inverted) .unsupportedInvertedCost
  let r ← minimize S (coObjective p o.alpha) (coBox p) none (coConstraints p o.l)
  Schedule.fromRaw p.d.toNat p.tEnd.toNat r.1

/-- `static_fractional.rs:34-43`: the objective. -/
def staticObjective (p : SCO ℚ C D) (alpha : ℚ) (x : List ℚ) : Res ECost := do
  let c ← p.toProb.alphaUnfairObjective (List.replicate p.tEnd.toNat x) alpha
  .ok c.cost

/-- `static_fractional.rs:17-49` `static_fractional`. -/
def staticFractional (S : Solver) (p : SCO ℚ C D) (o : OfflineOptions) : Res (Schedule ℚ) := do
  assertR (!o.inverted) .unsupportedInvertedCost
  assertR (o.l.isNone || o.l == some 0) .unsupportedLConstrainedMovement
  let r ← minimize S (staticObjective p o.alpha) p.bounds none []
  .ok (List.replicate p.tEnd.toNat r.1)

end OfflineFrac
end Soco
