import Verif.Spec.Optimiser
import Verif.Model.Problem

/-! # Specification: descent algorithms -/

namespace Soco.Spec
open Soco

/-- In slot `t` the instance has the certain hitting costs `hit` on its decision space, which is a box with corners on the
grid, and the movement costs `mv` (a function of the difference of two configurations). -/
structure Slot {C D : Type} [OutSuccess C] [OutFailure D] (p : SCO ℚ C D) (t : Int) (hit : Config ℚ → ECost)
    (mv : Config ℚ → ℚ) : Prop where
  box : GridBox p.bounds
  dim : p.d = p.bounds.length
  certain : ∀ x : Config ℚ, InBoxQ p.bounds x → ∃ o, p.hittingCost.callCertain t x = .ok ⟨hit x, o⟩
  mean : ∀ x : Config ℚ, InBoxQ p.bounds x → ∃ o, p.hittingCost.callMean t x = .ok ⟨hit x, o⟩
  moves : ∀ x : Config ℚ, x.length = p.bounds.length → p.switchingCost x = .ok (mv x)

/-- A point of the decision space whose entries are multiples of the precision. -/
def GridPoint (box : List (ℚ × ℚ)) (y : List ℚ) : Prop := InBoxQ box y ∧ ∀ j ∈ y, OnGrid j

/-- The latest configuration; before the first slot zero in all `d` dimensions. -/
def latest (d : Nat) (xs : Schedule ℚ) : Config ℚ := xs.getLast?.getD (List.replicate d 0)

/-- `x` with `δ` added in dimension `k`. -/
def bump (x : List ℚ) (k : Nat) (δ : ℚ) : List ℚ := x.modify k (· + δ)

/-- The Bregman divergence of `x` from `y` for the generating function `H`, whose gradient is approximated by central
differences with step `ε`. -/
def divergence (ε : ℚ) (H : List ℚ → ℚ) (x y : List ℚ) : ℚ :=
  H x - H y - (List.zipWith (· * ·)
    ((List.range y.length).map fun k : Nat => (H (bump y k ε) - H (bump y k (-ε))) / (2 * ε))
    (List.zipWith (· - ·) x y)).sum

/-- `x` lies on the segment between `v` and `y`. -/
def OnSegment (v y x : List ℚ) : Prop :=
  ∃ c : ℚ, 0 ≤ c ∧ c ≤ 1 ∧ x = List.zipWith (fun a b => c * a + (1 - c) * b) v y

/-- The squared Euclidean distance. -/
def sqDist (x y : List ℚ) : ℚ := (List.zipWith (fun a b => (a - b) ^ 2) x y).sum

end Soco.Spec
