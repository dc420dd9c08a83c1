import Verif.Model.Cost

/-!
# Specification: versions of a cost function

A history is the list of registrations `(stamp, function)` in the order in which they were made.
-/

namespace Soco.Spec
open Soco
variable {X C D : Type}

/-- `(s, f)` is the registration that decides slot `t`: its stamp is the largest stamp in `1..t`, and
it is the last registration under that stamp. -/
def IsVersion (history : List (Int × SingleCostFn X C D)) (t : Int)
    (e : Int × SingleCostFn X C D) : Prop :=
  1 ≤ e.1 ∧ e.1 ≤ t ∧
  (∃ before after, history = before ++ e :: after ∧ ∀ e' ∈ after, e'.1 ≠ e.1) ∧
  ∀ e' ∈ history, 1 ≤ e'.1 → e'.1 ≤ t → e'.1 ≤ e.1

/-- Some registration covers slot `t`. -/
def Covered (history : List (Int × SingleCostFn X C D)) (t : Int) : Prop :=
  ∃ e ∈ history, 1 ≤ e.1 ∧ e.1 ≤ t

/-- Every coordinate lies between zero and its upper bound. -/
def InBox {T : Type} [Value T] (bounds : List T) (x : Config T) : Prop :=
  List.Forall₂ (fun u j => 0 ≤ j ∧ j ≤ u) bounds x

/-- Every coordinate lies between its lower and upper bound. -/
def InBoxes {T : Type} [Value T] (bounds : List (T × T)) (x : Config T) : Prop :=
  List.Forall₂ (fun b j => b.1 ≤ j ∧ j ≤ b.2) bounds x

end Soco.Spec

/-- Slot `t` is certain: whenever it can be evaluated it has one sample. -/
def Soco.CostFn.CertainAt {X C D : Type} [Soco.OutSuccess C] [Soco.OutFailure D] (f : Soco.CostFn X C D)
    (t : Int) : Prop :=
  ∀ x r, f.callPredictive t x = .ok r → r.length = 1
