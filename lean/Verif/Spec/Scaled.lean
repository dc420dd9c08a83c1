import Verif.Model.Basic

/-! Over-provisioning: how a schedule with somewhat more servers compares to one with fewer. -/

namespace Soco.Spec
open Soco

/-- `y` has at least the servers of `x`, and at most `c` times as many, in every dimension. -/
def Between (c : ℚ) (x y : Config ℤ) : Prop := List.Forall₂ (fun a b : ℤ => a ≤ b ∧ (b : ℚ) ≤ c * a) x y

/-- Hitting costs grow at most proportionally: with up to `c` times the servers, a slot costs at most `c` times
as much. (Work is shared by more servers, each of which costs at most what it cost before.) -/
def GrowsAtMostBy (c : ℚ) (box : Config ℤ → Prop) (f : Config ℤ → ECost) : Prop :=
  ∀ x y, box x → box y → Between c x y → ∀ q : ℚ, f x = (q : ECost) → f y ≤ ((c * q : ℚ) : ECost)

end Soco.Spec
