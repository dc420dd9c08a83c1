import Verif.Model.UniGraph
import Verif.Model.Streaming

/-!
# Capacity provisioning

Models `implementation/src/algorithms/capacity_provisioning.rs`,
`implementation/src/algorithms/online/uni_dimensional/lazy_capacity_provisioning.rs` and
`implementation/src/algorithms/offline/uni_dimensional/capacity_provisioning.rs`.
-/

namespace Soco
namespace Lcp

/-- `numerics/mod.rs` `PRECISION`. -/
def precision : ℚ := 1 / 100

/-- `capacity_provisioning.rs:20-25` `BoundsMemory`. -/
structure BoundsMem (T : Type) where
  lower : T
  upper : T

/-- `capacity_provisioning.rs:34-79` trait `Bounded` together with `d` and `t_end` of the problem.
`find alpha inverted w t_end t_start x_start` is `find_alpha_unfair_lower_bound` for `inverted = false` and
`find_alpha_unfair_upper_bound` for `inverted = true`. -/
structure Bounded (T : Type) where
  d : Int
  tEnd : Int
  find : ℚ → Bool → Int → Int → Int → T → Res T

section
variable {C D : Type} [OutSuccess C] [OutFailure D]

/-- `capacity_provisioning.rs:202-228` `find_bound` of integral problems. `t_start ≤ t_end` is assumed
(`(t_end - t_start) as usize - 1`); if both are equal the index underflows, which panics. -/
def findBoundInt (p : SSCO ℤ C D) (alpha : ℚ) (inverted : Bool) (w tEnd tStart : Int) (xStart : ℤ) :
    Res ℤ := do
  assertP (decide (tEnd ≤ p.tEnd))
  assertR (decide (p.d = 1)) (.unsupportedProblemDimension p.d)
  if tEnd ≤ 0 then .ok 0
  else do
    let q := p.reset tStart
    let path ← Uni.optimalGraphSearch { q with tEnd := q.tEnd + w } xStart
      { inverted := inverted, alpha := alpha, l := none }
    assertP (decide (1 ≤ tEnd - tStart))
    let x ← idx path.xs ((tEnd - tStart).toNat - 1)
    idx x 0

/-- What NLopt's `find_minimizer` (`numerics/convex_optimization.rs`) is given and returns: an objective and
box constraints, and a point. -/
abbrev Minimizer := (List ℚ → Res ECost) → List (ℚ × ℚ) → Res (List ℚ)

/-- The objective of `capacity_provisioning.rs:141-160`: note the horizon `t_end + w` although the decisions
only cover `t_end - t_start` slots. -/
def boundObjective (q : SSCO ℚ C D) (alpha : ℚ) (inverted : Bool) (xStart : ℚ) (horizon : Int)
    (xs : List ℚ) : Res ECost := do
  let c ← q.toProb.objectiveWithDefault' (xs.map fun x => [x]) [xStart] alpha inverted horizon
  .ok c.cost

/-- `capacity_provisioning.rs:123-165` `find_bound` of fractional problems, with the optimiser as parameter. -/
def findBoundFrac (opt : Minimizer) (p : SSCO ℚ C D) (alpha : ℚ) (inverted : Bool)
    (w tEnd tStart : Int) (xStart : ℚ) : Res ℚ := do
  assertP (decide (tEnd ≤ p.tEnd))
  assertR (decide (p.d = 1)) (.unsupportedProblemDimension p.d)
  if tEnd ≤ 0 then .ok 0
  else do
    let q := p.reset tStart
    let q := { q with tEnd := q.tEnd + w }
    let u ← idx q.bounds 0
    let xs ← opt (boundObjective q alpha inverted xStart (tEnd + w))
      (List.replicate (tEnd - tStart).toNat (0, u))
    assertP (decide ((xs.length : Int) = tEnd - tStart))
    assertP (decide (1 ≤ tEnd - tStart))
    idx xs ((tEnd - tStart).toNat - 1)

/-- `capacity_provisioning.rs:168-195` `Bounded<i32>`. -/
def boundedInt (p : SSCO ℤ C D) : Bounded ℤ where
  d := p.d
  tEnd := p.tEnd
  find := findBoundInt p

/-- `capacity_provisioning.rs:81-108` `Bounded<f64>`. -/
def boundedFrac (opt : Minimizer) (p : SSCO ℚ C D) : Bounded ℚ where
  d := p.d
  tEnd := p.tEnd
  find := findBoundFrac opt p

end

section
variable {T : Type} [Value T]

/-- `lazy_capacity_provisioning.rs:97-108` `is_valid_initial_time`. -/
def isValidInitialTime (prev cur : BoundsMem T) : Bool :=
  decide (cur.upper < prev.upper) || decide (cur.lower > prev.lower)

/-- The loop body of `lazy_capacity_provisioning.rs:76-91`. The indices are within bounds. -/
def initialTimeAt (bounds : List (BoundsMem T)) (t : Int) : Option (Int × T) :=
  match bounds[t.toNat - 2]?, bounds[t.toNat - 1]? with
  | some prev, some cur =>
    if isValidInitialTime prev cur then
      if |toQ (prev.lower - prev.upper)| < precision * 10 then some (t - 1, prev.upper) else none
    else none
  | _, _ => none

/-- `lazy_capacity_provisioning.rs:72-93` `find_initial_time`. -/
def findInitialTime (bounds : List (BoundsMem T)) : Int × T :=
  ((timeRange 2 bounds.length).reverse.findSome? (initialTimeAt bounds)).getD (0, 0)

/-- `lazy_capacity_provisioning.rs:35-68` `lcp`. -/
def lcp (b : Bounded T) (w : Int) (t : Int) (xs : Schedule T) (bounds : List (BoundsMem T)) :
    Res (Config T × Option (List (BoundsMem T))) := do
  assertR (decide (b.d = 1)) (.unsupportedProblemDimension b.d)
  assertR (decide (t - 1 = bounds.length)) (.onlineOutOfDateMemory (t - 1) bounds.length)
  let start := findInitialTime bounds
  let i ← idx (Schedule.nowWithDefault xs [0]) 0
  let lower ← b.find 1 false w b.tEnd start.1 start.2
  let upper ← b.find 1 true w b.tEnd start.1 start.2
  .ok ([project i lower upper], some (bounds ++ [⟨lower, upper⟩]))

/-- Lazy capacity provisioning as an online algorithm (memory default: `lazy_capacity_provisioning.rs:20-24`). -/
def lcpAlg {P : Type} (bounded : P → Bounded T) : OnlineAlgorithm P T (List (BoundsMem T)) where
  default _ := []
  call o t xs m := lcp (bounded o.p) o.w t xs m

end

/-- `capacity_provisioning.rs:51-65` (offline) `next`. -/
def brcpNext (b : Bounded ℚ) (alpha : ℚ) (t : Int) (x : ℚ) : Res (ℚ × BoundsMem ℚ) := do
  let lower ← b.find alpha false 0 t 0 0
  let upper ← b.find alpha true 0 t 0 0
  .ok (project x lower upper, ⟨lower, upper⟩)

/-- The loop body of `capacity_provisioning.rs:42-46` (offline); the state is schedule, bounds and `x`. -/
def brcpStep (b : Bounded ℚ) (alpha : ℚ) (s : Schedule ℚ × List (BoundsMem ℚ) × ℚ) (t : Int) :
    Res (Schedule ℚ × List (BoundsMem ℚ) × ℚ) := do
  let r ← brcpNext b alpha t s.2.2
  .ok (Schedule.shift s.1 [r.1], r.2 :: s.2.1, r.1)

/-- `offline/uni_dimensional/capacity_provisioning.rs:24-49` `brcp`. -/
def brcp (b : Bounded ℚ) (o : OfflineOptions) : Res (Schedule ℚ × List (BoundsMem ℚ)) := do
  assertR (!o.inverted) .unsupportedInvertedCost
  assertR o.l.isNone .unsupportedLConstrainedMovement
  assertR (decide (b.d = 1)) (.unsupportedProblemDimension b.d)
  let s ← (timeRange 1 b.tEnd).reverse.foldlM (brcpStep b o.alpha) ([], [], 0)
  .ok (s.1, s.2.1)

end Lcp
end Soco
