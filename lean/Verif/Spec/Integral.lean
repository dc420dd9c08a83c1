import Verif.Model.Integral
import Mathlib.MeasureTheory.Integral.IntervalIntegral.Basic

/-! # Specification: exact quadrature rules -/

namespace Soco.Spec
open Soco MeasureTheory

/-- The rules compute exactly the integrals for which they are made: over a finite interval, over the positive numbers
with weight `exp (-x)` (Gauss-Laguerre), and over all numbers with weight `exp (-x ^ 2)` (Gauss-Hermite). -/
structure GaussRules (R : Quad.Rules) : Prop where
  finite : ∀ a b f, IntervalIntegrable f volume a b → R.finite a b f = .ok (∫ x in a..b, f x)
  laguerre : ∀ f : ℝ → ℝ, IntegrableOn (fun x => f x * Real.exp (-x)) (Set.Ioi 0) →
    R.laguerre f = some (∫ x in Set.Ioi 0, f x * Real.exp (-x))
  hermite : ∀ f : ℝ → ℝ, Integrable (fun x => f x * Real.exp (-x ^ 2)) →
    R.hermite f = some (∫ x, f x * Real.exp (-x ^ 2))

/-- A value is computed to the precision of the code. -/
def Computes (v : Option ℝ) (x : ℝ) : Prop := ∃ y, v = some y ∧ |y - x| ≤ 1 / 200 ∧ ∃ k : ℤ, y = k / 100

end Soco.Spec
