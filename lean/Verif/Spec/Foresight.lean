import Verif.Spec.Capacity
import Verif.Model.Loads

/-!
# Specification: one-dimensional integral problems with a prediction window
-/

namespace Soco.Spec
open Soco

/-- What is known of the instance shown in slot `n` together with perfect predictions of the next `w` slots:
one dimension with bound `m` and switching cost `β`, `n` slots, all of them certain, and the hitting costs `g`
up to slot `n + w`. -/
structure Foresight {C D : Type} [OutSuccess C] [OutFailure D] (p : SSCO ℤ C D) (m : ℤ) (β : ℚ)
    (g : Int → ℤ → ECost) (n w : Nat) : Prop where
  d : p.d = 1
  bounds : p.bounds = [m]
  switching : p.switchingCost = [β]
  tEnd : p.tEnd = n
  hit : ∀ t : Int, 1 ≤ t → t ≤ (n : Int) + w → ∀ j, 0 ≤ j → j ≤ m →
    ∃ out, p.toProb.hitCost t [j] = .ok ⟨g t j, out⟩
  certain : ∀ t : Int, 1 ≤ t → t ≤ n → p.hittingCost.CertainAt t

/-- The request which reveals slot `n + 1` of the loads together with exact predictions of the next `w` slots. -/
def foreseen (loads : List LoadProfile) (n w : Nat) : List PredictedLoadProfile :=
  ((loads.drop n).take (w + 1)).map LoadProfile.intoPredicted

end Soco.Spec
