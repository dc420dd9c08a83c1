import Verif.Model.Cost

/-! # Lemmas about cost functions -/

namespace Soco
variable {X C D : Type} [OutSuccess C] [OutFailure D]

theorem Cost.mean_singleton (c : Cost C D) : Cost.mean [c] = .ok c := by
  cases c with
  | mk a o =>
    simp only [Cost.mean, meanE, List.map_cons, List.map_nil, List.isEmpty_cons, List.sum_cons,
      List.sum_nil, add_zero, ECost.divQ, List.length_cons, List.length_nil, bind, Except.bind,
      ModelOutput.verticalReduce, List.foldlM_nil]
    cases a <;> simp [pure, Except.pure] <;> rfl

theorem CostFn.get_new (f : SingleCostFn X C D) (t : Int) (ht : 1 ≤ t) :
    (CostFn.new 1 f).get t = .ok (1, f) := by
  simp [CostFn.get, CostFn.new, assertP, ht, bind, Except.bind]

theorem CostFn.get_new_neg (f : SingleCostFn X C D) (t : Int) (ht : t < 1) :
    (CostFn.new 1 f).get t = .error .panic := by
  simp [CostFn.get, assertP, not_le.2 ht, bind, Except.bind]

theorem CostFn.callPredictive_certain (f : Int → X → Res (Cost C D)) (t : Int) (ht : 1 ≤ t) (x : X) :
    (CostFn.new 1 (SingleCostFn.certain f)).callPredictive t x = (f t x).map fun c => [c] := by
  rw [CostFn.callPredictive, CostFn.get_new _ t ht]
  simp only [bind, Except.bind, SingleCostFn.callPredictive, assertP, ge_iff_le, ht, decide_true,
    if_true, SingleCostFn.certain]
  cases f t x with
  | error e => rfl
  | ok c => by_cases h : t = 1 <;> simp [Except.map, h]

theorem CostFn.callMean_eq (fs : CostFn X C D) (t : Int) (x : X) :
    fs.callMean t x = (fs.callPredictive t x).bind Cost.mean := by
  simp only [CostFn.callMean, CostFn.callPredictive, SingleCostFn.callMean, bind, Except.bind]
  cases fs.get t <;> rfl

theorem CostFn.callCertain_eq (fs : CostFn X C D) (t : Int) (x : X) :
    fs.callCertain t x = (fs.callPredictive t x).bind fun r =>
      match r with
      | [c] => .ok c
      | _ => .error .panic := by
  simp only [CostFn.callCertain, CostFn.callPredictive, SingleCostFn.callCertain, bind, Except.bind]
  cases fs.get t <;> rfl

theorem CostFn.callMean_certain (f : Int → X → Res (Cost C D)) (t : Int) (ht : 1 ≤ t) (x : X) :
    (CostFn.new 1 (SingleCostFn.certain f)).callMean t x = f t x := by
  rw [CostFn.callMean_eq, CostFn.callPredictive_certain f t ht]
  cases f t x with
  | error e => rfl
  | ok c => simp [Except.map, Except.bind, Cost.mean_singleton]

theorem CostFn.callCertain_certain (f : Int → X → Res (Cost C D)) (t : Int) (ht : 1 ≤ t) (x : X) :
    (CostFn.new 1 (SingleCostFn.certain f)).callCertain t x = f t x := by
  rw [CostFn.callCertain_eq, CostFn.callPredictive_certain f t ht]
  cases f t x <;> rfl

end Soco
