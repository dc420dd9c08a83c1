import Verif.Model.Descent
import Verif.Model.Quadrature

/-!
# The probabilistic algorithm

Models `implementation/src/algorithms/online/uni_dimensional/probabilistic.rs` and the derivatives of
`numerics/finite_differences.rs`. Difference formulas and integration (see `Verif.Model.Quadrature` for the latter) are
parameters. Densities are finite numbers: infinite second derivatives and a division by a switching cost of zero, which give
densities that are infinite or not a number, are read as panics.
-/

namespace Soco
namespace Probabilistic
open Num

/-- A density; evaluating it may panic. -/
abbrev Density := ℚ → Res ℚ

/-- The external routines: difference formulas for the first and second derivative (`none` is NaN), and integration with
respect to breakpoints. -/
structure Tools where
  derivative : (ℚ → Res ECost) → ℚ → Res (Option Slack)
  second : (ℚ → Res ECost) → ℚ → Res (Option ℚ)
  integrate : Breakpoints → Endpoint → Endpoint → (ℚ → Res ℚ) → Res ℚ

/-- Rounding of a number that may be infinite. -/
def roundSlack : Slack → Slack
  | some (some q) => ((applyPrecision q : ℚ) : WithTop ℚ)
  | some none => ⊤
  | none => ⊥

/-- `finite_differences.rs:11-24` `derivative`. -/
def derivative (T : Tools) (f : ℚ → Res ECost) (x : ℚ) : Res Slack := do
  let v ← f x
  match v with
  | none => .ok ⊤
  | some _ => do
    let r ← T.derivative f x
    match r with
    | some s => .ok (roundSlack s)
    | none => .ok ((0 : ℚ) : WithTop ℚ)

/-- `finite_differences.rs:26-39` `second_derivative`, for finite values. -/
def secondDerivative (T : Tools) (f : ℚ → Res ECost) (x : ℚ) : Res ℚ := do
  let v ← f x
  match v with
  | none => .error .panic
  | some _ => do
    let r ← T.second f x
    match r with
    | some s => .ok (applyPrecision s)
    | none => .ok 0

/-- `probabilistic.rs:25-32` `Memory`. -/
structure Memory where
  p : Density
  breakpoints : List ℚ

/-- `probabilistic.rs:18` `EPSILON`. -/
def epsilon : ℚ := 1 / 100000

/-- `probabilistic.rs:38-52` `Memory::default`. -/
def Memory.default : Memory where
  p x := .ok (if 0 ≤ x ∧ x ≤ epsilon then 1 / epsilon else 0)
  breakpoints := [0, epsilon]

variable {C D : Type} [OutSuccess C] [OutFailure D]

/-- The hitting cost as a function of a number, not restricted to the bounds. -/
def cost (p : SSCO ℚ C D) (t : Int) (x : ℚ) : Res ECost := do
  let c ← p.hittingCost.callCertain t [x]
  .ok c.cost

/-- The function of `probabilistic.rs:166-183`. -/
def rightGap (T : Tools) (p : SSCO ℚ C D) (t : Int) (bp : Breakpoints) (prev : Density) (x : ℚ) : Res Slack := do
  let d ← derivative T (cost p t) x
  let β ← idx p.switchingCost 0
  let i ← T.integrate bp (.of x) ⊤ prev
  .ok (d.map fun e : WithTop ℚ => e.map (· - 2 * β * i))

/-- The function of `probabilistic.rs:199-216`. -/
def leftGap (T : Tools) (p : SSCO ℚ C D) (t : Int) (bp : Breakpoints) (prev : Density) (x : ℚ) : Res Slack := do
  let β ← idx p.switchingCost 0
  let i ← T.integrate bp ⊥ (.of x) prev
  let d ← derivative T (cost p t) x
  .ok (Descent.minus (2 * β * i) d)

/-- `probabilistic.rs:114-132`: the new density. -/
def density (T : Tools) (p : SSCO ℚ C D) (t : Int) (prev : Density) (xl xr x : ℚ) : Res ℚ :=
  if xl ≤ x ∧ x ≤ xr then do
    let a ← prev x
    let s ← secondDerivative T (cost p t) x
    let β ← idx p.switchingCost 0
    if β = 0 then .error .panic else .ok (a + s / (2 * β))
  else .ok 0

/-- Adds a breakpoint unless it is there (`probabilistic.rs:137-141`). -/
def push (bs : List ℚ) (b : ℚ) : List ℚ := if bs.contains b then bs else bs ++ [b]

/-- `probabilistic.rs:85-227` `probabilistic` with `find_right_bound`, `find_left_bound` and `expected_value`. -/
def probabilistic (S : Solver) (B : Brent) (T : Tools) (options : Breakpoints) :
    OnlineAlgorithm (SSCO ℚ C D) ℚ Memory where
  default _ := Memory.default
  call o t _ m := do
    assertR (decide (o.w = 0)) (.unsupportedPredictionWindow o.w)
    assertR (decide (o.p.d = 1)) (.unsupportedProblemDimension o.p.d)
    let bp := options.add m.breakpoints
    let u ← idx o.p.bounds 0
    let r ← hittingMinimizer S t o.p.hittingCost [(0, u)]
    let xm ← idx r.1 0
    let xr ← findRoot B xm u (rightGap T o.p t bp m.p)
    let xl ← findRoot B 0 xm (leftGap T o.p t bp m.p)
    let p := density T o.p t m.p xl xr
    let x ← T.integrate bp (.of xl) (.of xr) fun x => do
      let v ← p x
      .ok (x * v)
    .ok ([if x < xl ∨ x > xr then xm else x], some ⟨p, push (push m.breakpoints xl) xr⟩)

end Probabilistic
end Soco
