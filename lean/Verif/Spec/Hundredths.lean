import Mathlib.Algebra.BigOperators.Group.List.Basic
import Mathlib.Algebra.Order.Ring.Int

/-! # Specification: sharing a load in hundredths -/

namespace Soco.Spec

/-- The load can be handed to the types in whole hundredths of it, such that no type receives more than it has servers. -/
def InHundredths (l : ℤ) (x : List ℤ) : Prop :=
  ∃ ns : List ℤ, List.Forall₂ (fun xk n => 0 ≤ n ∧ l * n ≤ 100 * xk) x ns ∧ ns.sum = 100

end Soco.Spec
