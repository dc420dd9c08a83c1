import Verif.Model.Basic

/-!
# When rounding does not change anything
-/

namespace Soco.Spec

/-- `fl` leaves the first `N` multiples of `e` unchanged. For `f64` this holds for `N = 2 ^ 53` and every power of two `e`. -/
structure ExactTo (fl : ℚ → ℚ) (e : ℚ) (N : Nat) : Prop where
  pos : 0 < e
  exact : ∀ n : Nat, n ≤ N → fl (n * e) = n * e

/-- The cost is infinite or one of the first `n` multiples of `e`. -/
def Multiple (e : ℚ) (n : Nat) (c : ECost) : Prop := c = ⊤ ∨ ∃ k : Nat, k ≤ n ∧ c = ((k * e : ℚ) : ECost)

end Soco.Spec
