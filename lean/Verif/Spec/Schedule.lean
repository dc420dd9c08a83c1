import Verif.Model.Basic

/-!
# Specification: what a schedule costs

Small definitions, independent of the model's functions, against which the theorems are stated.
-/

namespace Soco.Spec
open Soco

variable {T : Type} [Value T]

/-- Switching cost of powering up from `y` to `x`: `∑ k, β k * max 0 (x k - y k)`. -/
def upCost (β : List ℚ) (y x : List T) : ℚ :=
  (List.zipWith3 (fun b yk xk => b * max 0 (toQ xk - toQ yk)) β y x).sum

/-- Switching cost of powering down from `y` to `x`. -/
def downCost (β : List ℚ) (y x : List T) : ℚ := upCost β x y

/-- Switching cost in the requested direction. -/
def moveCost (inverted : Bool) (β : List ℚ) (y x : List T) : ℚ :=
  if inverted then downCost β y x else upCost β y x

/-- `∑ k, β k * x k` -/
def weighted (β : List ℚ) (x : List T) : ℚ := (List.zipWith (fun b xk => b * toQ xk) β x).sum

/-- Total cost of the configurations `xs` in the slots `t, t+1, …`, coming from `prev`: every slot
pays its hitting cost plus `α` times the movement from the previous configuration. -/
def totalCost {X : Type} (hit : Int → X → ECost) (mv : X → X → ℚ) (α : ℚ) :
    Int → X → List X → ECost
  | _, _, [] => 0
  | t, prev, x :: xs => hit t x + ((α * mv prev x : ℚ) : ECost) + totalCost hit mv α (t + 1) x xs

/-- Sum of the movements along `xs`, coming from `prev`. -/
def totalMove {X : Type} (mv : X → X → ℚ) : X → List X → ℚ
  | _, [] => 0
  | prev, x :: xs => mv prev x + totalMove mv x xs

/-- Sum of the hitting costs of `xs` in the slots `t, t+1, …`. -/
def totalHit {X : Type} (hit : Int → X → ECost) : Int → List X → ECost
  | _, [] => 0
  | t, x :: xs => hit t x + totalHit hit (t + 1) xs

/-- The first `n` configurations of a schedule, a missing configuration being read as `dflt`. -/
def padTo {X : Type} (n : Nat) (dflt : X) (xs : List X) : List X :=
  xs.take n ++ List.replicate (n - xs.length) dflt

end Soco.Spec
