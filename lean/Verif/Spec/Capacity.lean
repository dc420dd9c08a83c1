import Verif.Model.Problem
import Verif.Spec.Convex
import Verif.Spec.CostFn

/-!
# Specification: one-dimensional integral problems revealed slot by slot
-/

namespace Soco.Spec
open Soco

/-- What is known of the instance shown in slot `n`: one dimension with bound `m` and switching cost `β`, `n`
slots, all of them certain, with the hitting costs `g`. -/
structure Inst {C D : Type} [OutSuccess C] [OutFailure D] (p : SSCO ℤ C D) (m : ℤ) (β : ℚ)
    (g : Int → ℤ → ECost) (n : Nat) : Prop where
  d : p.d = 1
  bounds : p.bounds = [m]
  switching : p.switchingCost = [β]
  tEnd : p.tEnd = n
  hit : ∀ t : Int, 1 ≤ t → t ≤ n → ∀ j, 0 ≤ j → j ≤ m → ∃ out, p.toProb.hitCost t [j] = .ok ⟨g t j, out⟩
  certain : ∀ t : Int, 1 ≤ t → t ≤ n → p.hittingCost.CertainAt t

/-- What is known of the parameters and the hitting costs of `n` slots: bound and switching cost are positive
(as in every verified problem), the costs are non-negative and convex, and using all servers has a finite
cost. -/
structure Costs (m : ℤ) (β : ℚ) (g : Int → ℤ → ECost) (n : Nat) : Prop where
  hm : 0 < m
  hβ : 0 < β
  fin : ∀ t : Int, 1 ≤ t → t ≤ n → g t m ≠ ⊤
  nonneg : ∀ t : Int, 1 ≤ t → t ≤ n → ∀ j, 0 ≤ j → j ≤ m → 0 ≤ g t j
  conv : ∀ t : Int, 1 ≤ t → t ≤ n → ConvexOnE m (g t)

end Soco.Spec
