import Verif.Model.Loads
import Verif.Spec.Schedule
import Verif.Spec.CostFn

/-!
# Specification: sub time slots, and servers kept on until their idle cost exceeds their switching cost
-/

namespace Soco.Spec
open Soco

/-- Constraints on SBLO instances. -/
def ValidSBLO {T : Type} [Value T] (p : SBLO T) : Prop :=
  0 < p.d ∧ 0 ≤ p.tEnd ∧ (p.bounds.length : Int) = p.d ∧ (p.switchingCost.length : Int) = p.d ∧
  p.tEnd ≤ p.load.length ∧ (∀ u ∈ p.bounds, 0 < u) ∧ (∀ b ∈ p.switchingCost, 0 < b) ∧
  (∀ t : Nat, (t : Int) < p.tEnd → ∀ l, p.load[t]? = some l → 0 ≤ l)

/-- The cost of a server of `f` during one of `n` equal parts of a slot. -/
def partCost (f : CostFn ℚ Unit DCFailure) (n : Nat) (t : Int) (x : ℚ) : Res (Cost Unit DCFailure) :=
  match f.callCertain t x with
  | .error e => .error e
  | .ok c => .ok ⟨ECost.divQ c.cost n, c.output⟩

/-- The instance with all costs divided by `n`. -/
def divided (p : SBLO ℤ) (n : Nat) : SBLO ℤ :=
  { p with hittingCost := p.hittingCost.map fun f => CostFn.new 1 (SingleCostFn.certain (partCost f n)) }

/-- A sub time slot: one of the `n` equal parts of slot `t` of the instance `p`. -/
structure SubSlot where
  p : SBLO ℤ
  t : Int
  n : Nat

/-- What a configuration costs in a sub time slot. -/
def SubSlot.hit (S : Num.Solver) (h : SubSlot) (x : Config ℤ) : ECost :=
  match (divided h.p h.n).hitCost S h.t x with
  | .ok c => c.cost
  | .error _ => ⊤

/-- What an idle server of type `k` costs in a sub time slot. -/
def SubSlot.idle (h : SubSlot) (k : Nat) : ECost :=
  match h.p.hittingCost[k]? with
  | none => 0
  | some f => match partCost f h.n h.t 0 with
    | .ok c => c.cost
    | .error _ => 0

/-- Idle cost of a server powered up in sub slot `s`, summed over the sub slots `s + 1, …, i`. -/
def idleSince (idle : Nat → ECost) (s i : Nat) : ECost := ((List.range' (s + 1) (i - s)).map idle).sum

/-- The number of servers in sub slot `i`, if `ups s` were powered up in sub slot `s` and a server is powered down as
soon as its idle cost since then exceeds `β`. -/
def stillOn (ups : Nat → ℤ) (idle : Nat → ECost) (β : ℚ) (i : Nat) : ℤ :=
  ((List.range (i + 1)).map fun s => if idleSince idle s i ≤ (β : ECost) then ups s else 0).sum

/-- `n` is the number of sub slots of slot `t`: the least integer which is at least `d / ε * l k / β k` for each type
`k`, `l k` being the cost of an idle server. -/
def IsSubSlotCount (p : SBLO ℤ) (t : Int) (ε : ℚ) (n : Nat) : Prop :=
  (∀ (k : Nat) (f : CostFn ℚ Unit DCFailure) (b : ℚ) (c : Cost Unit DCFailure), p.hittingCost[k]? = some f →
    p.switchingCost[k]? = some b → f.callCertain t 0 = .ok c → ∃ l : ℚ, c.cost = l ∧ p.d / ε * (l / b) ≤ n) ∧
  ∃ (k : Nat) (f : CostFn ℚ Unit DCFailure) (b : ℚ) (c : Cost Unit DCFailure) (l : ℚ),
    p.hittingCost[k]? = some f ∧ p.switchingCost[k]? = some b ∧ f.callCertain t 0 = .ok c ∧ c.cost = l ∧
    (n : ℚ) < p.d / ε * (l / b) + 1

/-- What the configurations `xs` cost in the first sub slots of `hist`, starting without servers. -/
def subTotal (S : Num.Solver) (hist : Nat → SubSlot) (β : List ℚ) (xs : Schedule ℤ) : ECost :=
  totalCost (fun u x => (hist (u - 1).toNat).hit S x) (upCost β) 1 1 (List.replicate β.length 0) xs

/-- `ys` is an optimal schedule for the sub slots `0, …, i` of `hist`. -/
structure SubOptimal (S : Num.Solver) (hist : Nat → SubSlot) (bounds : List ℤ) (β : List ℚ) (i : Nat)
    (ys : Schedule ℤ) : Prop where
  length : ys.length = i + 1
  box : ∀ y ∈ ys, InBox bounds y
  finite : subTotal S hist β ys ≠ ⊤
  least : ∀ zs : Schedule ℤ, zs.length = i + 1 → (∀ z ∈ zs, InBox bounds z) →
    subTotal S hist β ys ≤ subTotal S hist β zs

/-- The sub slots of the instances `ps`, the last slot of the `k`-th being divided into `ns[k]` parts. -/
def subSlots (ps : List (SBLO ℤ)) (ns : List Nat) : List SubSlot :=
  ((ps.zip ns).map fun q => List.replicate q.2 ⟨q.1, q.1.tEnd, q.2⟩).flatten

/-- The `i`-th sub slot. -/
def subSlot (L : List SubSlot) (i : Nat) : SubSlot := L.getD i ⟨⟨0, 0, [], [], [], []⟩, 0, 0⟩

end Soco.Spec
