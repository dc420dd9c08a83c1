import Verif.Model.Rounded
import Verif.Model.Parallel
import Verif.Model.Convert

/-!
# Cost of a schedule with rounded arithmetic and parallel summation

Every sum and product of costs is rounded by `fl`, and the slots are summed in parallel, in any way of splitting them.

Models `implementation/src/problem.rs:160-183,479-539` and rayon's `sum` over `implementation/src/cost.rs:68-83`.
-/

namespace Soco

namespace Rounded

variable {C D : Type} [OutSuccess C] [OutFailure D]

/-- The sum of `problem.rs:533-538`, from left to right, starting with `acc`. -/
def weightedSum (fl : ℚ → ℚ) : ℚ → List ℚ → Config ℤ → Res ℚ
  | acc, _, [] => .ok acc
  | _, [], _ :: _ => .error .panic
  | acc, b :: bs, j :: x => weightedSum fl (fl (acc + fl (b * (j : ℚ)))) bs x

/-- `problem.rs:524-539` `scaled_movement`, for integers. -/
def scaledMovement (fl : ℚ → ℚ) (switchingCost : List ℚ) (x prevX : Config ℤ) (inverted : Bool) : Res ℚ := do
  weightedSum fl 0 switchingCost (← movementVec x prevX inverted)

/-- The closure of `problem.rs:171-182`: cost of one slot. -/
def slotCost (fl : ℚ → ℚ) (p : SSCO ℤ C D) (alpha : ℚ) (inverted : Bool) (t : Int) (prevX x : Config ℤ) : Res (Cost C D) := do
  let hitting ← p.toProb.hitOrNone t x
  let m ← scaledMovement fl p.switchingCost x prevX inverted
  .ok ⟨addFl fl hitting.cost ((fl (alpha * m) : ℚ) : ECost), hitting.output⟩

/-- One step of `cost.rs:73-80`. -/
def addCost (fl : ℚ → ℚ) (a b : Cost C D) : Cost C D := ⟨addFl fl a.cost b.cost, ModelOutput.hstep a.output b.output⟩

/-- `cost.rs:73-82`. -/
def sumCosts (fl : ℚ → ℚ) : List (Cost C D) → Cost C D
  | [] => Cost.dflt
  | c :: cs => cs.foldl (addCost fl) c

/-- Rayon's `sum`: a chunk is added to the sum of no items, and the sums of two parts are added. -/
def sumSplit (fl : ℚ → ℚ) (slot : Int → Res (Cost C D)) : Split Int → Res (Cost C D)
  | .chunk ts => do
    let cs ← ts.mapM slot
    .ok (sumCosts fl [Cost.dflt, sumCosts fl cs])
  | .node l r => do
    let a ← sumSplit fl slot l
    let b ← sumSplit fl slot r
    .ok (sumCosts fl [a, b])

/-- `problem.rs:160-183` `_objective_function_with_default`; the slots are split into `s`. -/
def objective (fl : ℚ → ℚ) (s : Split Int) (p : SSCO ℤ C D) (xs : Schedule ℤ) (dflt : Config ℤ) (alpha : ℚ) (inverted : Bool) :
    Res (Cost C D) :=
  sumSplit fl (fun t => slotCost fl p alpha inverted t ((xs.get (t - 1)).getD dflt) ((xs.get t).getD dflt)) s

end Rounded

end Soco
