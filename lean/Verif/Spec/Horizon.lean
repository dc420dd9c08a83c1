import Verif.Spec.Optimiser
import Verif.Spec.Schedule
import Verif.Spec.CostFn
import Verif.Model.Problem

/-! # Specification: instances shown to horizon control -/

namespace Soco.Spec
open Soco
variable {C D : Type} [OutSuccess C] [OutFailure D]

/-- Slots before the first cost nothing. -/
def fromSlotOne (hit : Int → Config ℚ → ECost) (s : Int) (x : Config ℚ) : ECost := if s < 1 then 0 else hit s x

/-- An instance whose bounds are multiples of the numeric precision and whose slots so far are certain and have the
hitting costs `hit` everywhere in the decision space. -/
structure Usable (p : SSCO ℚ C D) (hit : Int → Config ℚ → ECost) : Prop where
  dim : p.d = p.bounds.length
  costs : p.switchingCost.length = p.bounds.length
  bound : ∀ u ∈ p.bounds, 0 ≤ u ∧ OnGrid u
  certain : ∀ s, 1 ≤ s → s ≤ p.tEnd → p.hittingCost.CertainAt s
  defined : ∀ s, 1 ≤ s → s ≤ p.tEnd → ∀ x, InBox p.bounds x → ∃ o, p.hittingCost.callMean s x = .ok ⟨hit s x, o⟩

/-- A plan for slots `s, s+1, …`: configurations of the decision space whose entries are multiples of the precision. -/
def Plan (bounds : List ℚ) (xs : Schedule ℚ) : Prop := ∀ x ∈ xs, InBox bounds x ∧ ∀ j ∈ x, OnGrid j

/-- Cost of a plan which begins in slot `s`, coming from `prev`. -/
def planCost (hit : Int → Config ℚ → ECost) (β : List ℚ) (s : Int) (prev : Config ℚ) (xs : Schedule ℚ) : ECost :=
  totalCost (fromSlotOne hit) (upCost β) 1 s prev xs

/-- No plan for the same slots is cheaper. -/
def OptimalPlan (hit : Int → Config ℚ → ECost) (β bounds : List ℚ) (s : Int) (prev : Config ℚ) (xs : Schedule ℚ) : Prop :=
  ∀ other : Schedule ℚ, other.length = xs.length → Plan bounds other →
    planCost hit β s prev xs ≤ planCost hit β s prev other

/-- The instances of a history: slot after slot, with the same decision space and window. -/
structure Shown (bounds : List ℚ) (w : Nat) (hit : Int → Config ℚ → ECost) (os : List (Online (SSCO ℚ C D))) : Prop where
  slot : ∀ (i : Nat) o, os[i]? = some o → o.p.tEnd = i + 1
  usable : ∀ o ∈ os, Usable o.p hit ∧ o.p.bounds = bounds ∧ o.w = w

end Soco.Spec
