import Verif.Model.Numerics
import Verif.Model.Problem
import Verif.Model.Streaming

/-!
# Descent algorithms

Models `implementation/src/numerics/{roots,finite_differences}.rs`, the minimisation of hitting costs in
`numerics/convex_optimization.rs`, `algorithms/online/multi_dimensional/online_balanced_descent/`,
`algorithms/online/multi_dimensional/online_gradient_descent.rs` and `algorithms/online/uni_dimensional/memoryless.rs`.
NLopt, Brent's method, square roots of parameters and dual norms are parameters.
-/

namespace Soco
namespace Num

/-- A difference quotient of values which may be infinite; the difference of two infinities is not a number, and is
replaced by 0 (`finite_differences.rs:43-51`). -/
def diffQuot (ε : ℚ) (a b : ECost) : Slack :=
  match a, b with
  | some a, some b => (((a - b) / (2 * ε) : ℚ) : WithTop ℚ)
  | none, some _ => ⊤
  | some _, none => ⊥
  | none, none => ((0 : ℚ) : WithTop ℚ)

/-- `central_diff` of the crate `finitediff`: in every dimension evaluates the function a step `ε` ahead and behind. -/
def centralDiff {E G : Type} (quot : E → E → G) (ε : ℚ) (f : List ℚ → Res E) (x : List ℚ) : Res (List G) :=
  (List.range x.length).mapM fun k : Nat => do
    let a ← f (x.modify k (· + ε))
    let b ← f (x.modify k (· - ε))
    .ok (quot a b)

/-- `finite_differences.rs:41-52` `gradient`. -/
def gradient (ε : ℚ) : (List ℚ → Res ECost) → List ℚ → Res (List Slack) := centralDiff (diffQuot ε) ε

/-- `finite_differences.rs:41-52` `gradient` of a function with finite values. -/
def gradientQ (ε : ℚ) : (List ℚ → Res ℚ) → List ℚ → Res (List ℚ) := centralDiff (fun a b => (a - b) / (2 * ε)) ε

/-- The absolute value of a number that may be infinite. -/
def Slack.abs : Slack → ECost
  | none => ⊤
  | some none => ⊤
  | some (some q) => ((|q| : ℚ) : ECost)

/-- Brent's method (crate `bacon-sci`): the points it evaluates, and the root unless it fails. -/
abbrev Brent := ℚ × ℚ → (ℚ → Res Slack) → List ℚ × Option ℚ

/-- Evaluates a function, for its panics only. -/
def visit1 (f : ℚ → Res Slack) : List ℚ → Res Unit
  | [] => .ok ()
  | x :: xs => do
    let _ ← f x
    visit1 f xs

/-- `roots.rs:12` `ROOT_PRECISION`. -/
def rootPrecision : ℚ := precision * 1000

/-- `roots.rs:14-41` `find_root`. -/
def findRoot (B : Brent) (a b : ℚ) (f : ℚ → Res Slack) : Res ℚ :=
  if |a - b| < precision then .ok a
  else do
    let l ← f a
    let r ← f b
    if l.abs < ((rootPrecision : ℚ) : ECost) then .ok a
    else if r.abs < ((rootPrecision : ℚ) : ECost) then .ok b
    else if (0 < l ∧ 0 < r) ∨ (l < 0 ∧ r < 0) then .ok (if l.abs ≤ r.abs then a else b)
    else do
      let ans := B (a, b) f
      visit1 f ans.1
      match ans.2 with
      | some x => .ok (applyPrecision x)
      | none => .error .panic

/-- `convex_optimization.rs:60-65` `find_minimizer`. -/
def findMinimizer (S : Solver) (f : List ℚ → Res ECost) (bounds : List (ℚ × ℚ)) : Res (List ℚ × ECost) :=
  minimize S f bounds none []

/-- `convex_optimization.rs:44-57` `find_minimizer_of_hitting_cost`. -/
def hittingMinimizer {C D : Type} [OutSuccess C] [OutFailure D] (S : Solver) (t : Int) (f : CostFn (Config ℚ) C D)
    (bounds : List (ℚ × ℚ)) : Res (List ℚ × ECost) :=
  findMinimizer S (fun x => do
    let c ← f.callCertain t x
    .ok c.cost) bounds

end Num

namespace Descent
open Num
variable {C D : Type} [OutSuccess C] [OutFailure D]

/-- The configuration of the previous slot, zero before the first (`xs.now_with_default(Config::repeat(0., o.p.d))`). -/
def prevX (d : Int) (xs : Schedule ℚ) : Config ℚ := Schedule.nowWithDefault xs (Config.repeat 0 d.toNat)

/-- `meta.rs:125-136` `bregman_divergence`. -/
def bregmanDivergence (ε : ℚ) (h : Config ℚ → Res ℚ) (x y : Config ℚ) : Res ℚ := do
  let mx ← h x
  let my ← h y
  let grad ← gradientQ ε h y
  .ok (mx - my - Config.dot grad (Config.sub x y))

/-- `meta.rs:88-122` `bregman_projection`. -/
def bregmanProjection (S : Solver) (ε : ℚ) (h : Config ℚ → Res ℚ) (l : ℚ) (bounds : List (ℚ × ℚ))
    (f : CostFn (Config ℚ) C D) (t : Int) (x : Config ℚ) : Res (Config ℚ) := do
  let v ← hittingMinimizer S t f bounds
  let objective := fun y => do
    let b ← bregmanDivergence ε h y x
    .ok ((b : ℚ) : ECost)
  let constraint := fun y => do
    let c ← f.callCertain t y
    .ok ((c.cost.map (· - l) : ECost) : Slack)
  let y ← minimize S objective bounds (some v.1) [constraint]
  let c ← f.callCertain t y.1
  if c.cost > ((l : ℚ) : ECost) then .ok v.1 else .ok y.1

/-- `meta.rs:52-70` `obd`. -/
def obd (S : Solver) (ε : ℚ) (h : Config ℚ → Res ℚ) (l : ECost) : OnlineAlgorithm (SCO ℚ C D) ℚ Unit where
  default _ := ()
  call o t xs _ := do
    assertR (decide (o.w = 0)) (.unsupportedPredictionWindow o.w)
    match l with
    | none => .error .panic
    | some l => do
      let x ← bregmanProjection S ε h l o.p.bounds o.p.hittingCost t (prevX o.p.d xs)
      .ok (x, none)

/-- `primal.rs:80-92`: the upper end of the interval in which the level is searched. -/
def upperLevel (a : ℚ) (b : ECost) : ℚ :=
  match b with
  | none => 1000 * a
  | some b => b

/-- `primal.rs:53-93` `pobd`. -/
def pobd (S : Solver) (B : Brent) (ε : ℚ) (h : Config ℚ → Res ℚ) (β : ℚ) : OnlineAlgorithm (SCO ℚ C D) ℚ Unit where
  default _ := ()
  call o t xs _ := do
    assertR (decide (o.w = 0)) (.unsupportedPredictionWindow o.w)
    let prev := prevX o.p.d xs
    let v ← hittingMinimizer S t o.p.hittingCost o.p.bounds
    let move ← o.p.switchingCost (Config.sub v.1 prev)
    match v.2 with
    | none => if 0 < β then .ok (v.1, none) else .error .panic
    | some a =>
      if move ≤ β * a then .ok (v.1, none)
      else do
        let b ← o.p.toProb.hitCost t prev
        let l ← findRoot B a (upperLevel a b.cost) fun l => do
          let x ← (obd S ε h ((l : ℚ) : ECost)).next o xs none
          let m ← o.p.switchingCost (Config.sub x.1 prev)
          .ok (((m - β * l : ℚ) : WithTop ℚ) : Slack)
        (obd S ε h ((l : ℚ) : ECost)).next o xs none

/-- A number that may be infinite, if it is finite. -/
def finite? : Slack → Option ℚ
  | some (some q) => some q
  | _ => none

/-- The finite numbers of a vector, if all are finite. -/
def allFinite (xs : List Slack) : Option (List ℚ) := xs.mapM finite?

/-- `dual.rs:79-97`: the function whose root is the level. `dual` computes the dual norm of a finite vector
(`distance.rs:82-100`; of an infinite vector it is infinite). With `η = 0` and an infinite dual norm the code computes with
NaN, which is read as a panic here. -/
def gap (S : Solver) (ε : ℚ) (h : Config ℚ → Res ℚ) (dual : Config ℚ → Res ℚ) (η : ℚ) (o : Online (SCO ℚ C D)) (t : Int)
    (xs : Schedule ℚ) (prev : Config ℚ) (l : ℚ) : Res Slack := do
  let x ← (obd S ε h ((l : ℚ) : ECost)).next o xs none
  let gx ← gradientQ ε h x.1
  let gp ← gradientQ ε h prev
  let distance ← dual (Config.sub gx gp)
  let gf ← gradient ε (fun y => do
    let c ← o.p.toProb.hitCost t y
    .ok c.cost) x.1
  match allFinite gf with
  | some g => do
    let hitting ← dual g
    .ok (((distance - η * hitting : ℚ) : WithTop ℚ) : Slack)
  | none => if 0 < η then .ok ⊥ else if η < 0 then .ok ⊤ else .error .panic

/-- `dual.rs:54-101` `dobd`. An infinite optimal hitting cost reaches the assertion of `obd` (`meta.rs:64`). -/
def dobd (S : Solver) (B : Brent) (ε : ℚ) (h : Config ℚ → Res ℚ) (dual : Config ℚ → Res ℚ) (η : ℚ) :
    OnlineAlgorithm (SCO ℚ C D) ℚ Unit where
  default _ := ()
  call o t xs _ := do
    assertR (decide (o.w = 0)) (.unsupportedPredictionWindow o.w)
    let prev := prevX o.p.d xs
    let v ← hittingMinimizer S t o.p.hittingCost o.p.bounds
    let b ← o.p.toProb.hitCost t prev
    match v.2 with
    | none => .error .panic
    | some a => do
      let l ← findRoot B a (upperLevel a b.cost) (gap S ε h dual η o t xs prev)
      (obd S ε h ((l : ℚ) : ECost)).next o xs none

/-- `greedy.rs:54-84` `gobd`; `c` stands for `mu * m.sqrt()`. -/
def gobd (S : Solver) (B : Brent) (ε : ℚ) (h : Config ℚ → Res ℚ) (c γ : ℚ) : OnlineAlgorithm (SCO ℚ C D) ℚ Unit where
  default _ := ()
  call o t xs _ := do
    assertR (decide (o.w = 0)) (.unsupportedPredictionWindow o.w)
    let v ← hittingMinimizer S t o.p.hittingCost o.p.bounds
    let y ← (pobd S B ε h γ).next o xs none
    if c ≥ 1 then .ok (v.1, none)
    else .ok (Config.add (Config.smul c v.1) (Config.smul (1 - c) y.1), none)

/-- `regularized.rs:47-94` `robd`, given the weights of `build_parameters`. -/
def robd (S : Solver) (lambda1 lambda2 : ℚ) : OnlineAlgorithm (SCO ℚ C D) ℚ Unit where
  default _ := ()
  call o t xs _ := do
    assertR (decide (o.w = 0)) (.unsupportedPredictionWindow o.w)
    let prev := prevX o.p.d xs
    let v ← hittingMinimizer S t o.p.hittingCost o.p.bounds
    let x ← findMinimizer S (fun x => do
      let hit ← o.p.toProb.hitCost t x
      let a ← o.p.switchingCost (Config.sub x prev)
      let b ← o.p.switchingCost (Config.sub x v.1)
      .ok (hit.cost + ((lambda1 * a : ℚ) : ECost) + ((lambda2 * b : ℚ) : ECost))) o.p.bounds
    .ok (x.1, none)

/-- `regularized.rs:97-115` `build_parameters`, where `s` is the square root of `1 + 4 * beta^2 / (alpha * m)` and `eps` is
`f64::EPSILON`. -/
def buildParameters (s m β eps : ℚ) : ℚ × ℚ :=
  let fLambda2 := fun lambda1 : ℚ => (lambda1 * m / 2 * (1 + s) - m) / β
  let lambda1 := 2 / (1 + s)
  if |fLambda2 lambda1 - 0| < eps then (lambda1, 0) else (1, fLambda2 1)

/-- A product with a number that may be infinite; zero times infinity is not a number, which is read as a panic. -/
def scale (η : ℚ) (g : Slack) : Res Slack :=
  match g with
  | some (some q) => .ok (((η * q : ℚ) : WithTop ℚ) : Slack)
  | some none => if 0 < η then .ok ⊤ else if η < 0 then .ok ⊥ else .error .panic
  | none => if 0 < η then .ok ⊥ else if η < 0 then .ok ⊤ else .error .panic

/-- Subtraction of a number that may be infinite. -/
def minus (x : ℚ) (g : Slack) : Slack :=
  match g with
  | some (some q) => ((x - q : ℚ) : WithTop ℚ)
  | some none => ⊥
  | none => ⊤

/-- `online_gradient_descent.rs:77-82`: the Euclidean distance of `x` and `y`; `root` is the square root. -/
def euclideanTo (root : ℚ → ℚ) (y : List Slack) (x : List ℚ) : ECost :=
  match allFinite y with
  | some y => ((root ((Config.sub x y).map fun j : ℚ => j ^ 2).sum : ℚ) : ECost)
  | none => ⊤

/-- `online_gradient_descent.rs:50-74` `ogd`. -/
def ogd (S : Solver) (root : ℚ → ℚ) (ε : ℚ) (eta : Int → ℚ) : OnlineAlgorithm (SCO ℚ C D) ℚ Unit where
  default _ := ()
  call o t xs _ := do
    assertR (decide (o.w = 0)) (.unsupportedPredictionWindow o.w)
    let t := t + 1
    let prev := prevX o.p.d xs
    let grad ← gradient ε (fun x => do
      let c ← o.p.toProb.hitCost (t - 1) x
      .ok c.cost) prev
    let step ← grad.mapM (scale (eta (t - 1)))
    let y := List.zipWith minus prev step
    let x ← findMinimizer S (fun x => .ok (euclideanTo root y x)) o.p.bounds
    .ok (x.1, none)

/-- The constraint of `memoryless.rs:57-60`. -/
def balance (β : ℚ) (x prev : ℚ) (hit : ECost) : Slack :=
  match hit with
  | some c => ((β * |x - prev| - c / 2 : ℚ) : WithTop ℚ)
  | none => ⊥

/-- `memoryless.rs:15-64` `memoryless` with `next`. -/
def memoryless (S : Solver) : OnlineAlgorithm (SSCO ℚ C D) ℚ Unit where
  default _ := ()
  call o t xs _ := do
    assertR (decide (o.w = 0)) (.unsupportedPredictionWindow o.w)
    assertR (decide (o.p.d = 1)) (.unsupportedProblemDimension o.p.d)
    let prev ← idx (Schedule.nowWithDefault xs [0]) 0
    let u ← idx o.p.bounds 0
    let r ← minimize S (fun x => do
        let c ← o.p.toProb.hitCost t x
        .ok c.cost) [(0, u)] none
      [fun x => do
        let x0 ← idx x 0
        let β ← idx o.p.switchingCost 0
        let c ← o.p.toProb.hitCost t [x0]
        .ok (balance β x0 prev c.cost)]
    let x ← idx r.1 0
    .ok ([x], none)

end Descent
end Soco
