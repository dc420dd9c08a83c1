import Verif.Spec.Budgeting

/-!
# Specification: servers of a single type which share their load equally
-/

namespace Soco.Spec
open Soco

/-- What is assumed of the cost `g z` of a server with load `z`: it is convex, and an idle server costs
`l`, which is the least. -/
structure ServerCost (g : ℚ → ECost) (l : ℚ) : Prop where
  idle : g 0 = (l : ECost)
  nonneg : 0 ≤ l
  least : ∀ z, 0 ≤ z → (l : ECost) ≤ g z
  convex : ∀ a b θ u v : ℚ, 0 ≤ a → 0 ≤ b → 0 ≤ θ → θ ≤ 1 → g a = (u : ECost) → g b = (v : ECost) →
    g (θ * a + (1 - θ) * b) ≤ ((θ * u + (1 - θ) * v : ℚ) : ECost)

/-- What `x` servers cost which share the load `q`. -/
def serversCost (g : ℚ → ECost) (q : ℚ) (x : ℤ) : ECost :=
  if x = 0 then if q = 0 then 0 else ⊤ else ECost.mulQ x (g (q / x))

/-- What the schedule `xs` costs, starting without servers: in slot `k` the configuration `x` costs `hit k x`; powering
up a server of a type costs the corresponding entry of `β`. -/
def farmCost (hit : Nat → Config ℤ → ECost) (β : List ℚ) (xs : Schedule ℤ) : ECost :=
  totalCost (fun t x => hit (t - 1).toNat x) (upCost β) 1 1 (List.replicate β.length 0) xs

end Soco.Spec
