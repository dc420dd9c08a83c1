import Verif.Model.Cost

/-! # Specification: which failures are returned -/

namespace Soco.Spec
open Soco

/-- Whenever a failure is returned (`Err(failure)`), it is one of those in `P`. Panics and values are not restricted. -/
structure FailsOnly {α : Type} (P : Failure → Prop) (r : Res α) : Prop where
  only : ∀ f, r = .error (.fail f) → P f

/-- Never returns a failure. -/
abbrev Quiet {α : Type} (r : Res α) : Prop := FailsOnly (fun _ => False) r

/-- The cost functions given by the user return costs or panic. In the code their type leaves no other possibility. -/
def UserCosts {X C D : Type} (fs : CostFn X C D) : Prop := ∀ e ∈ fs, ∀ t x, Quiet (e.2 t x)

/-- Merging model outputs returns or panics; again the type in the code leaves no other possibility. -/
def UserMerge (C : Type) [OutSuccess C] : Prop := ∀ a b : C, Quiet (OutSuccess.vmerge a b)

/-- `f` belongs to the first requirement in the list that does not hold. -/
def FirstViolated : List (Prop × Failure) → Failure → Prop
  | [], _ => False
  | (p, g) :: cs, f => (¬ p ∧ f = g) ∨ (p ∧ FirstViolated cs f)

/-- A failure is returned exactly if one of the requirements does not hold, namely that of the first. -/
def Checked {α : Type} (r : Res α) (checks : List (Prop × Failure)) : Prop :=
  ∀ f, r = .error (.fail f) ↔ FirstViolated checks f

end Soco.Spec
