import Verif.Spec.Optimiser

/-! Solvers that only evaluate feasible points. -/

namespace Soco.Spec
open Soco

/-- If there is a feasible point of the grid, the solver evaluates the objective only at points which (rounded to the
precision) are feasible. -/
def StaysFeasible (S : Num.Solver) : Prop :=
  ∀ box f init cs, GridBox box → (∃ y, InBoxQ box y ∧ (∀ j ∈ y, OnGrid j) ∧ Meets cs y) →
    ∀ q ∈ (S box f init cs).probes, InBoxQ box (Num.applyPrecisionVec q) ∧ Meets cs (Num.applyPrecisionVec q)

end Soco.Spec
