import Mathlib.MeasureTheory.Measure.GiryMonad
import Mathlib.MeasureTheory.Measure.Lebesgue.Basic
import Mathlib.MeasureTheory.Integral.Bochner.Basic

/-! # Specification: randomised rounding -/

namespace Soco.Spec
open MeasureTheory

/-- The uniform distribution on the unit interval. -/
noncomputable def unif : Measure ℝ := volume.restrict (Set.Icc 0 1)

/-- The unbiased rounding of `y`: `⌈y⌉` with probability `fract y`, `⌊y⌋` otherwise. -/
noncomputable def rounded (y : ℝ) : Measure ℤ :=
  ENNReal.ofReal (1 - Int.fract y) • Measure.dirac ⌊y⌋ + ENNReal.ofReal (Int.fract y) • Measure.dirac ⌈y⌉

/-- Distribution after the fractional values `ys`, if the integral value is distributed like `μ` at the fractional
value `y`, and `round x y y' r` is the next integral value for a fresh uniform draw `r`. -/
noncomputable def law (round : ℤ → ℝ → ℝ → ℝ → ℤ) : Measure ℤ → ℝ → List ℝ → Measure ℤ
  | μ, _, [] => μ
  | μ, y, y' :: ys => law round (μ.bind fun x => unif.map (round x y y')) y' ys

/-- The expectation of a function of `n` independent uniform draws. -/
noncomputable def expect : ℕ → (List ℝ → ℝ) → ℝ
  | 0, F => F []
  | n + 1, F => ∫ r, expect n (fun rs => F (r :: rs)) ∂unif

/-- The integral values for the fractional values `ys` and the draws `rs`, coming from the integral value `x` and the
fractional value `y`. -/
def roundAll {K : Type} (round : ℤ → K → K → K → ℤ) : ℤ → K → List K → List K → List ℤ
  | x, y, y' :: ys, r :: rs => round x y y' r :: roundAll round (round x y y' r) y' ys rs
  | _, _, _, _ => []

/-- Going from `y` to `y'` does not come down from `⌈y'⌉` or above to a fractional value. -/
def GentleStep (y y' : ℝ) : Prop := y ≤ y' ∨ y < ⌈y'⌉ ∨ (⌊y'⌋ : ℝ) = y'

end Soco.Spec
