import Verif.Model.Lcp

/-! # Specification: exact optimisers -/

namespace Soco.Spec
open Soco

/-- A point inside box constraints. -/
def InBoxQ (box : List (ℚ × ℚ)) (xs : List ℚ) : Prop :=
  List.Forall₂ (fun b x => b.1 ≤ x ∧ x ≤ b.2) box xs

/-- The optimiser solves this problem exactly: it returns a point of the box at which the objective is defined and
as small as at every point of the box. -/
def Solves (opt : Lcp.Minimizer) (F : List ℚ → Res ECost) (box : List (ℚ × ℚ)) : Prop :=
  ∃ xs c, opt F box = .ok xs ∧ InBoxQ box xs ∧ F xs = .ok c ∧
    ∀ ys c', InBoxQ box ys → F ys = .ok c' → c ≤ c'

/-- An extended-valued cost on the rationals of `[0, u]` is convex (three-point form). -/
def ConvexOnEQ (u : ℚ) (f : ℚ → ECost) : Prop :=
  ∀ x y z : ℚ, 0 ≤ x → x < y → y < z → z ≤ u → ∀ a c : ℚ, f x = a → f z = c →
    ∃ b : ℚ, f y = b ∧ (z - x) * b ≤ (z - y) * a + (y - x) * c

end Soco.Spec
