import Verif.Model.Numerics
import Verif.Model.Convert
import Verif.Model.Streaming

/-!
# Horizon control

Models `implementation/src/algorithms/online/multi_dimensional/horizon_control/`. NLopt is a parameter.
-/

namespace Soco
namespace Horizon
variable {C D : Type} [OutSuccess C] [OutFailure D]

/-- The slice `xs[a..b]`: panics if it ends behind the vector. -/
def slice (xs : List ℚ) (a b : Nat) : Res (List ℚ) :=
  if a ≤ b ∧ b ≤ xs.length then .ok ((xs.drop a).take (b - a)) else .error .panic

/-- `horizon_control/mod.rs:35-40`: the bounds, repeated for every slot of the plan; panics if there are fewer bounds than
dimensions. -/
def box (o : Online (SSCO ℚ C D)) : Res (List (ℚ × ℚ)) := do
  let b ← (List.range o.p.d.toNat).mapM fun k : Nat => do
    let u ← idx o.p.bounds k
    .ok ((0 : ℚ), u)
  .ok ((List.range (o.w + 1).toNat).flatMap fun _ => b)

/-- `horizon_control/mod.rs:41-50`: the cost of a plan for the slots from `tStart` on. -/
def objective (o : Online (SSCO ℚ C D)) (tStart : Int) (prevX : Config ℚ) (raw : List ℚ) : Res ECost := do
  let xs ← Schedule.fromRaw o.p.d.toNat (o.w + 1).toNat raw
  let c ← (o.p.reset (tStart - 1)).toProb.objectiveWithDefault xs prevX
  .ok c.cost

/-- `horizon_control/mod.rs:21-60` `next`: the new initial configuration and the configuration for slot `t`. -/
def next (S : Num.Solver) (k : Int) (o : Online (SSCO ℚ C D)) (t : Int) (prevX : Config ℚ) :
    Res (Config ℚ × Config ℚ) := do
  assertP (decide (1 ≤ k) && decide (k ≤ o.w + 1))
  let tStart := t + k - (o.w + 1)
  let bounds ← box o
  let r ← Num.minimize S (objective o tStart prevX) bounds none []
  let offset := o.p.d * (t - tStart)
  let first ← slice r.1 0 o.p.d.toNat
  let x ← slice r.1 offset.toNat (offset.toNat + o.p.d.toNat)
  .ok (first, x)

/-- `receding_horizon_control.rs:10-24` `rhc`. -/
def rhc (S : Num.Solver) : OnlineAlgorithm (SSCO ℚ C D) ℚ Unit where
  default _ := ()
  call o t xs _ := do
    let r ← next S (o.w + 1) o t (Schedule.nowWithDefault xs (Config.repeat 0 o.p.d.toNat))
    .ok (r.2, none)

/-- `averaging_fixed_horizon_control.rs:14-19` `Memory`: the field `prev_x`. -/
abbrev Memory := List (Config ℚ)

/-- `averaging_fixed_horizon_control.rs:54-59`: the loop over the plans. -/
def plans (S : Num.Solver) (o : Online (SSCO ℚ C D)) (t : Int) (memory : Memory) :
    List Int → Config ℚ → Memory → Res (Config ℚ × Memory)
  | [], x, prevX => .ok (x, prevX)
  | k :: ks, x, prevX => do
    let m ← idx memory (k - 1).toNat
    let r ← next S k o t m
    plans S o t memory ks (Config.add x r.2) (prevX ++ [r.1])

/-- `averaging_fixed_horizon_control.rs:31-61` `afhc` with the default memory. -/
def afhc (S : Num.Solver) : OnlineAlgorithm (SSCO ℚ C D) ℚ Memory where
  default o := List.replicate (o.w.toNat + 1) (Config.repeat 0 o.p.d.toNat)
  call o t _ memory := do
    let r ← plans S o t memory (timeRange 1 (o.w + 1)) (Config.repeat 0 o.p.d.toNat) []
    .ok (Config.divQ r.1 ((o.w + 1 : Int) : ℚ), some r.2)

end Horizon
end Soco
