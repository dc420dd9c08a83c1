import Verif.Model.DataCenter

/-! # Specification: what the data center models are documented to compute -/

namespace Soco.Spec
open Soco

/-- Energy drawn from each of the sources with limits `ls`, in order, if `p` units are needed. -/
def drawn : ℚ → List ℚ → List ℚ
  | _, [] => []
  | p, l :: ls => min p l :: drawn (max 0 (p - l)) ls

/-- Each unit drawn from a source is paid at its price, each unused unit earns its profit. Sources are given as price,
profit and limit, in the order in which they are used. -/
def quotaCharge : ℚ → List (ℚ × ℚ × ℚ) → ℚ
  | _, [] => 0
  | p, (c, r, l) :: ss => c * min p l - r * (l - min p l) + quotaCharge (max 0 (p - l)) ss

/-- A profile for each sample, each with one value per job type that was predicted for this job type. -/
def SampledFrom (p : PredictedLoadProfile) (n : Nat) (profiles : List LoadProfile) : Prop :=
  profiles.length = n ∧ ∀ l ∈ profiles, List.Forall₂ (fun v zs => v ∈ zs) l p

end Soco.Spec

namespace Soco.Spec
open Soco

/-- The solver writes its result into the vector it was given, so it has one entry per bound. -/
def Shaped (S : Num.Solver) : Prop :=
  ∀ bounds f init cs, (∀ b ∈ bounds, b.1 ≤ b.2) → (S bounds f init cs).x.length = bounds.length

/-- `loads` distributes the load `l` to dimensions such that only dimensions with active servers receive load, and
`costs` are the costs of the dimensions: each active server handles an equal part of the load of its dimension. -/
def Balanced (f : Nat → ℚ → ECost) (x : List ℚ) (l : ℚ) (loads : List ℚ) (costs : List ECost) : Prop :=
  loads.length = x.length ∧ costs.length = x.length ∧ loads.sum = l ∧
  ∀ k xk lk ck, x[k]? = some xk → loads[k]? = some lk → costs[k]? = some ck →
    (0 < xk → ck = ECost.mulQ xk (f k (lk / xk))) ∧ (xk ≤ 0 → lk = 0 ∧ ck = 0)

end Soco.Spec
