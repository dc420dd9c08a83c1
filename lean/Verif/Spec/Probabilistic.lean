import Verif.Model.Basic
import Mathlib.Algebra.Order.Field.Rat
import Mathlib.Tactic.Linarith

/-! # Specification: step functions and their mass -/

namespace Soco.Spec
open Soco

/-- `p` is constant on the pieces, which begin at `a` and are given by their right ends and heights, and zero behind them. The
values at the ends do not matter. -/
def StepFrom (p : ℚ → Res ℚ) : ℚ → List (ℚ × ℚ) → Prop
  | a, [] => ∀ x, a < x → p x = .ok 0
  | a, (b, h) :: ps => a < b ∧ (∀ x, a < x → x < b → p x = .ok h) ∧ StepFrom p b ps

/-- The area below the pieces. -/
def area : ℚ → List (ℚ × ℚ) → ℚ
  | _, [] => 0
  | a, (b, h) :: ps => h * (b - a) + area b ps

/-- `p` is a step function with total mass `m`. -/
def HasMass (p : ℚ → Res ℚ) (m : ℚ) : Prop :=
  ∃ a ps, (∀ x, x < a → p x = .ok 0) ∧ StepFrom p a ps ∧ area a ps = m

end Soco.Spec
