import Mathlib.Analysis.SpecialFunctions.Exp
import Mathlib.Data.EReal.Basic

/-!
# Integration of real functions

Models `implementation/src/numerics/quadrature/mod.rs` in exact real arithmetic. The quadrature rules of the library
`bacon_sci` are parameters.
-/

namespace Soco.Quad

/-- The quadrature rules of the library. -/
structure Rules where
  /-- `integrate(from, to, f, TOLERANCE)`: an estimate, marked as failed if the tolerance was not reached. -/
  finite : ℝ → ℝ → (ℝ → ℝ) → Except ℝ ℝ
  /-- `integrate_laguerre(f, TOLERANCE)`: nothing if it fails. -/
  laguerre : (ℝ → ℝ) → Option ℝ
  /-- `integrate_hermite(f, TOLERANCE)`: nothing if it fails. -/
  hermite : (ℝ → ℝ) → Option ℝ

/-- `numerics/mod.rs:17-21` `apply_precision`, on real numbers: halfway cases are rounded away from zero. -/
noncomputable def applyPrecision (x : ℝ) : ℝ :=
  ((if 0 ≤ x / (1 / 100) then ⌊x / (1 / 100) + 1 / 2⌋ else ⌈x / (1 / 100) - 1 / 2⌉ : ℤ) : ℝ) * (1 / 100)

/-- `quadrature/mod.rs:51-61` `handle_integration_result`. -/
def handleResult : Except ℝ ℝ → ℝ
  | .ok v => v
  | .error v => v

/-- `quadrature/mod.rs:34-36` `finite_integral`. -/
def finiteIntegral (R : Rules) (a b : ℝ) (f : ℝ → ℝ) : ℝ := handleResult (R.finite a b f)

/-- `quadrature/mod.rs:39-44` `semi_infinite_integral`; `none` is the panic of `unwrap`. -/
noncomputable def semiInfiniteIntegral (R : Rules) (f : ℝ → ℝ) : Option ℝ := R.laguerre fun x => f x * Real.exp x

/-- `quadrature/mod.rs:47-49` `infinite_integral`. -/
def infiniteIntegral (R : Rules) (f : ℝ → ℝ) : Option ℝ := R.hermite f

/-- `quadrature/mod.rs:13-31` `integral`. Simplification: real numbers have no NaN, and an interval which starts in
`∞` or ends in `-∞` is treated like a panic, as functions are defined on the real numbers only. -/
noncomputable def integral (R : Rules) (a b : EReal) (f : ℝ → ℝ) : Option ℝ :=
  (match a, b with
    | ⊥, ⊤ => infiniteIntegral R f
    | (a : ℝ), ⊤ => semiInfiniteIntegral R fun x => f (a + x)
    | ⊥, (b : ℝ) => semiInfiniteIntegral R fun x => f (b - x)
    | (a : ℝ), (b : ℝ) => some (finiteIntegral R a b f)
    | _, _ => none).map applyPrecision

end Soco.Quad
