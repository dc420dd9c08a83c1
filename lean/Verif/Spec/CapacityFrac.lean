import Verif.Spec.Capacity
import Verif.Spec.Minimizer

/-!
# Specification: one-dimensional fractional problems revealed slot by slot
-/

namespace Soco.Spec
open Soco

/-- What is known of the instance shown in slot `n`: one dimension with bound `u` and switching cost `β`, `n`
slots, all of them certain, with the hitting costs `g`. -/
structure InstQ {C D : Type} [OutSuccess C] [OutFailure D] (p : SSCO ℚ C D) (u β : ℚ)
    (g : Int → ℚ → ECost) (n : Nat) : Prop where
  d : p.d = 1
  bounds : p.bounds = [u]
  switching : p.switchingCost = [β]
  tEnd : p.tEnd = n
  hit : ∀ t : Int, 1 ≤ t → t ≤ n → ∀ j, 0 ≤ j → j ≤ u → ∃ out, p.toProb.hitCost t [j] = .ok ⟨g t j, out⟩
  certain : ∀ t : Int, 1 ≤ t → t ≤ n → p.hittingCost.CertainAt t

/-- What is known of the parameters and the hitting costs of `n` slots: bound and switching cost are positive
(as in every verified problem), the costs are non-negative and convex, and using all servers has a finite
cost. -/
structure CostsQ (u β : ℚ) (g : Int → ℚ → ECost) (n : Nat) : Prop where
  hu : 0 < u
  hβ : 0 < β
  fin : ∀ t : Int, 1 ≤ t → t ≤ n → g t u ≠ ⊤
  nonneg : ∀ t : Int, 1 ≤ t → t ≤ n → ∀ j, 0 ≤ j → j ≤ u → 0 ≤ g t j
  conv : ∀ t : Int, 1 ≤ t → t ≤ n → ConvexOnEQ u (g t)

/-- The optimiser is exact: whenever a minimum over the box exists, it finds one. -/
def ExactMinimizer (opt : Lcp.Minimizer) : Prop :=
  ∀ F box, (∃ xs c, InBoxQ box xs ∧ F xs = .ok c ∧ ∀ ys c', InBoxQ box ys → F ys = .ok c' → c ≤ c') →
    Solves opt F box

end Soco.Spec
