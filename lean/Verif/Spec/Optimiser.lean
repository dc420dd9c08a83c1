import Verif.Model.Numerics
import Verif.Spec.Minimizer

/-! # Specification: what the library expects of NLopt -/

namespace Soco.Spec
open Soco

/-- A multiple of the numeric precision. -/
def OnGrid (x : ℚ) : Prop := ∃ z : ℤ, x = z * (1 / 100)

/-- A non-empty box whose corners are multiples of the numeric precision. -/
def GridBox (box : List (ℚ × ℚ)) : Prop := ∀ b ∈ box, b.1 ≤ b.2 ∧ OnGrid b.1 ∧ OnGrid b.2

/-- The solver works on vectors with one entry per bound, returns points within the bounds, and does not fail. It may
time out, and the points need not be good. -/
structure Sound (S : Num.Solver) : Prop where
  inside : ∀ box f init cs, (∀ b ∈ box, b.1 ≤ b.2) → InBoxQ box (S box f init cs).x
  probes : ∀ box f init cs, ∀ q ∈ (S box f init cs).probes, q.length = box.length
  ends : ∀ box f init cs, (S box f init cs).status ≠ .failed

/-- The solver moreover evaluates only points within the bounds. -/
structure Inner (S : Num.Solver) : Prop extends Sound S where
  probed : ∀ box f init cs, (∀ b ∈ box, b.1 ≤ b.2) → ∀ q ∈ (S box f init cs).probes, InBoxQ box q

/-- Satisfies all constraints. -/
def Meets (cs : List (List ℚ → Res Num.Slack)) (x : List ℚ) : Prop := ∀ c ∈ cs, ∃ v, c x = .ok v ∧ v ≤ 0

/-- The solver is exact: for every objective (whose values it sees at points rounded to the precision), it finds a best
point of the box among those which meet the constraints, if there is one. -/
structure Exact (S : Num.Solver) : Prop extends Sound S where
  done : ∀ box f init cs, (S box f init cs).status = .done
  feasible : ∀ box f init cs, GridBox box → (∃ y, InBoxQ box y ∧ (∀ j ∈ y, OnGrid j) ∧ Meets cs y) →
    Meets cs (Num.applyPrecisionVec (S box f init cs).x)
  best : ∀ box (f : List ℚ → Res ECost) init cs, GridBox box → ∀ y c c', InBoxQ box y → (∀ j ∈ y, OnGrid j) → Meets cs y →
    f (Num.applyPrecisionVec (S box f init cs).x) = .ok c → f y = .ok c' → c ≤ c'

end Soco.Spec
