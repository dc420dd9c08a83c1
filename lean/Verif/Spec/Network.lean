import Verif.Spec.Site
import Verif.Spec.Optimiser
import Verif.Spec.Schedule

/-! # Specification: splitting the load of a slot among the servers of a network of data centers -/

namespace Soco.Spec
open Soco

/-- How loads are split among `d` kinds of servers: kind `k` receives the share `z k i` of the load `λᵢ`. Shares are
multiples of the numeric precision, except for those of the last kind, which receives the rest. The shares of `λᵢ` sum up
to `λᵢ / (λ₁ + ⋯ + λₑ)`, which is one if there is a single load. -/
structure LoadSplit (d : Nat) (lambda : List ℚ) (z : Nat → Nat → ℚ) : Prop where
  nonneg : ∀ k i, k < d → i < lambda.length → 0 ≤ z k i
  grid : ∀ k i, k + 1 < d → i < lambda.length → OnGrid (z k i)
  total : ∀ i, i < lambda.length → 0 < lambda.sum → sumTo d (fun k => z k i) = lambda.getD i 0 / lambda.sum

namespace Site
variable (D : Site)

/-- The jobs of type `i` from source `s` which are sent to servers of type `k` at location `j`. -/
def sent (lambda : List ℚ) (z : Nat → Nat → ℚ) (j k s i : Nat) : ℚ :=
  lambda.getD (s * D.jobTypes + i) 0 * z (j * D.types + k) (s * D.jobTypes + i)

/-- The number of servers of type `k` at location `j`. -/
def active {T : Type} [Value T] (x : List T) (j k : Nat) : ℚ := (x.map toQ).getD (j * D.types + k) 0

open Classical in
/-- What a slot costs: energy and lost revenue at all locations, infinite if some server cannot process its jobs. -/
noncomputable def slotCost (n : Nat → Nat → ℚ) (a : Nat → Nat → Nat → Nat → ℚ) : ECost :=
  if D.Feasible n a then sumTo D.locations (D.energyCost n a) + ((sumTo D.locations (D.lossAt n a) : ℚ) : ECost) else ⊤

end Site

/-- A plan gives for every slot the numbers of servers, of which there are at most `bounds`, and how the load of the slot
is split among them. -/
def IsNetworkPlan (bounds : List ℤ) (loads : List (List ℚ)) (plan : List (List ℤ × (Nat → Nat → ℚ))) : Prop :=
  plan.length = loads.length ∧ ∀ i q, plan[i]? = some q →
    List.Forall₂ (fun u j => 0 ≤ j ∧ j ≤ u) bounds q.1 ∧ LoadSplit bounds.length (loads.getD i []) q.2

/-- What a plan costs, which gives for every slot the numbers of servers and how the load of the slot is split among
them: every slot pays for energy and lost revenue, and for the servers which are powered up. -/
noncomputable def networkCost (D : Int → Site) (β : List ℚ) (loads : List (List ℚ))
    (plan : List (List ℤ × (Nat → Nat → ℚ))) : ECost :=
  totalCost (fun t (q : List ℤ × (Nat → Nat → ℚ)) =>
      (D t).slotCost ((D t).active q.1) ((D t).sent (loads.getD (t - 1).toNat []) q.2))
    (fun a b => upCost β a.1 b.1) 1 1 (List.replicate β.length 0, fun _ _ => 0) plan

end Soco.Spec
