import Verif.Model.Basic

/-!
# Numerics: precision and optimisation

Models `implementation/src/numerics/mod.rs` and the interface of `implementation/src/numerics/convex_optimization.rs`.
The NLopt library is a parameter (`Solver`).
-/

namespace Soco
namespace Num

/-- `numerics/mod.rs:9` `PRECISION`. -/
def precision : ℚ := 1 / 100

/-- `numerics/mod.rs:11` `TOLERANCE`. -/
def tolerance : ℚ := precision / 10

/-- `f64::round`: to the nearest integer, half-way cases away from zero. -/
def roundAway (x : ℚ) : ℤ := if 0 ≤ x then ⌊x + 1 / 2⌋ else ⌈x - 1 / 2⌉

/-- `numerics/mod.rs:17-21` `apply_precision`. -/
def applyPrecision (x : ℚ) : ℚ := (roundAway (x / precision) : ℚ) * precision

/-- `numerics/mod.rs:22-29` `apply_precision` on vectors. -/
def applyPrecisionVec (xs : List ℚ) : List ℚ := xs.map applyPrecision

/-- How the solver ends (`nlopt::SuccessState`, `nlopt::FailState`): with a result (including
`RoundoffLimited`), at the limit of evaluations or time, or with another failure. -/
inductive Status where
  | done
  | timedOut
  | failed
deriving DecidableEq, Repr

/-- What a run of NLopt does: the points at which it evaluates objective and constraints, the point it returns,
and how it ended. -/
structure Answer where
  probes : List (List ℚ)
  x : List ℚ
  status : Status

/-- The value of a constraint: an `N64`, which may be infinite. -/
abbrev Slack := WithBot (WithTop ℚ)

/-- NLopt, given bounds, objective, initial point and inequality constraints (`c ≤ 0`). -/
abbrev Solver := List (ℚ × ℚ) → (List ℚ → Res ECost) → List ℚ → List (List ℚ → Res Slack) → Answer

/-- Evaluates objective and constraints at the probes, for their panics only. -/
def visit (f : List ℚ → Res ECost) (cs : List (List ℚ → Res Slack)) : List (List ℚ) → Res Unit
  | [] => .ok ()
  | x :: xs => do
    let _ ← f (applyPrecisionVec x)
    let _ ← cs.mapM fun c => c (applyPrecisionVec x)
    visit f cs xs

/-- `numerics/convex_optimization.rs:97-180` `optimize` in direction `Minimize`, called through
`convex_optimization.rs:76-83` `minimize`. Every evaluation first rounds the point (`evaluate`,
`convex_optimization.rs:212-222`). The value reported by the library is taken to be the objective at the point it
returns; after a timeout it is replaced by infinity. The initial point defaults to the upper bounds. Bounds are
finite here. -/
def minimize (S : Solver) (f : List ℚ → Res ECost) (bounds : List (ℚ × ℚ)) (init : Option (List ℚ))
    (constraints : List (List ℚ → Res Slack)) : Res (List ℚ × ECost) := do
  let x0 := init.getD (bounds.map Prod.snd)
  assertP (x0.length == bounds.length)
  let a := S bounds f x0 constraints
  visit f constraints a.probes
  assertP (a.status != .failed)
  let x := applyPrecisionVec a.x
  let v ← f x
  .ok (x, if a.status = .timedOut then ⊤ else v)

end Num
end Soco
