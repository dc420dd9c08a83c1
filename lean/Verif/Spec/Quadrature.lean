import Verif.Model.Quadrature

/-! # Specification: pieces of an interval -/

namespace Soco.Spec
open Soco Num

/-- The number of pieces of the path `b, c₁, c₂, …` whose integral `I` is below the precision. -/
def smallPieces (I : ℚ → ℚ → ℚ) : ℚ → List ℚ → Nat
  | _, [] => 0
  | b, c :: cs => (if I b c < precision then 1 else 0) + smallPieces I c cs

/-- The integral is additive. -/
def Additive (J : Endpoint → Endpoint → ℚ) : Prop := ∀ a b c, a ≤ b → b ≤ c → J a b + J b c = J a c

/-- Where a path `cs` from `b` towards `to'` stops: at `to'` if fewer than ten of its pieces are small, and otherwise
at its last point, which ends the tenth small piece. -/
def StopsAt (I : ℚ → ℚ → ℚ) (to' : Endpoint) (b : ℚ) (cs : List ℚ) (e : Endpoint) : Prop :=
  (e = to' ∧ smallPieces I b cs < 10) ∨ (∃ c, cs.getLast? = some c ∧ e = Endpoint.of c ∧ smallPieces I b cs = 10)

/-- `z` may follow `y` on a path to the right: a fixed breakpoint or the dynamic breakpoint after `y`. -/
def StepRight (bp : Breakpoints) (y z : ℚ) : Prop :=
  y < z ∧ (z ∈ bp.bs ∨ ∃ next, bp.next = some next ∧ (next y).2 = some z)

/-- `z` may follow `y` on a path to the left. -/
def StepLeft (bp : Breakpoints) (y z : ℚ) : Prop :=
  z < y ∧ (z ∈ bp.bs ∨ ∃ next, bp.next = some next ∧ (next y).1 = some z)

/-- The dynamic breakpoints lie on the right side of the point they are asked for. -/
def Progress (bp : Breakpoints) : Prop :=
  ∀ next, bp.next = some next → ∀ y, (∀ l, (next y).1 = some l → l < y) ∧ ∀ r, (next y).2 = some r → y < r

end Soco.Spec
