import Verif.Model.Descent

/-!
# Dual norms

Models `implementation/src/distance.rs:82-100` `dual_norm` and the maximisation without bounds of
`implementation/src/numerics/convex_optimization.rs`. The NLopt library is a parameter (`Maximizer`).
-/

namespace Soco
namespace Num

/-- NLopt without bounds in direction `Maximize`, given the dimension, objective, initial point and inequality constraints (`c ≤ 0`). -/
abbrev Maximizer := Nat → (List ℚ → Res ℚ) → List ℚ → List (List ℚ → Res Slack) → Answer

/-- `numerics/convex_optimization.rs:68-75` `find_unbounded_maximizer` with `maximize` (`convex_optimization.rs:86-93`), `optimize`
(`convex_optimization.rs:97-180`) and `build_empty_bounds` (`convex_optimization.rs:205-210`), for objectives with finite values. The
search begins at zero. Only the point is returned: the caller ignores the value. -/
def unboundedMaximizer (M : Maximizer) (f : List ℚ → Res ℚ) (d : Nat) (constraints : List (List ℚ → Res Slack)) : Res (List ℚ) := do
  let a := M d f (List.replicate d 0) constraints
  visit (fun z => do
    let v ← f z
    .ok (v : ECost)) constraints a.probes
  assertP (a.status != .failed)
  .ok (applyPrecisionVec a.x)

end Num

namespace Distance
open Num

/-- The constraint of `distance.rs:91-93`. -/
def unitBall (norm : List ℚ → Res ℚ) (z : List ℚ) : Res Slack := do
  let v ← norm z
  .ok (((v - 1 : ℚ) : WithTop ℚ) : Slack)

/-- `distance.rs:82-100` `dual_norm` of a finite vector. -/
def finiteDual (M : Maximizer) (norm : List ℚ → Res ℚ) (x : List ℚ) : Res ℚ := do
  let z ← unboundedMaximizer M (fun z => .ok (Config.dot z x)) x.length [unitBall norm]
  .ok (Config.dot z x)

/-- `distance.rs:82-100` `dual_norm`: infinite if an entry is infinite. -/
def dualNorm (M : Maximizer) (norm : List ℚ → Res ℚ) (x : List Slack) : Res ECost :=
  match Descent.allFinite x with
  | none => .ok ⊤
  | some x => do
    let v ← finiteDual M norm x
    .ok (v : ECost)

end Distance
end Soco
