import Verif.Props.Descent
import Verif.Lemmas.Optimiser

/-! # C50: balanced descent in a slot without finite costs -/

namespace Soco
namespace Descent
open Spec Num

section
variable {C D : Type} [OutSuccess C] [OutFailure D]

/-- **C50** (limit of the dual algorithm). In a slot in which no configuration has finite costs, the dual algorithm aborts,
whatever the optimiser and the root finder do. -/
theorem C50_dobd_infinite (S : Solver) (hS : Inner S) (B : Brent) (o : Online (SCO ℚ C D)) (hw : o.w = 0) (xs : Schedule ℚ)
    (hxs : ∀ x ∈ xs, x.length = o.p.bounds.length) (mv : Config ℚ → ℚ)
    (hp : Slot o.p (xs.length + 1) (fun _ => ⊤) mv) (ε : ℚ) (h : Config ℚ → Res ℚ) (dual : Config ℚ → Res ℚ) (η : ℚ) :
    (dobd S B ε h dual η).next o xs none = .error .panic := by
  obtain ⟨v, a, hv, -, ha, -, -⟩ := hittingMinimizer_ok hS hp
  obtain rfl : a = ⊤ := by rcases ha with h | h <;> exact h
  obtain ⟨b, hb⟩ := hitCost_total hp (latest o.p.bounds.length xs) (latest_length _ _ hxs)
  have e : (dobd S B ε h dual η).next o xs none = (dobd S B ε h dual η).call o (xs.length + 1) xs () := rfl
  rw [e]
  simp only [dobd, hw, assertR, decide_true, if_true, bind, Except.bind, hv, hb, prevX_eq o.p hp.dim]

/-- **C50** (the primal algorithm without finite costs). In such a slot the primal algorithm does not abort: it goes to the
point that the optimiser names. -/
theorem C50_pobd_infinite (S : Solver) (hS : Inner S) (B : Brent) (o : Online (SCO ℚ C D)) (hw : o.w = 0) (xs : Schedule ℚ)
    (hxs : ∀ x ∈ xs, x.length = o.p.bounds.length) (mv : Config ℚ → ℚ)
    (hp : Slot o.p (xs.length + 1) (fun _ => ⊤) mv) (ε : ℚ) (h : Config ℚ → Res ℚ) (β : ℚ) (hβ : 0 < β) :
    ∃ v, hittingMinimizer S (xs.length + 1) o.p.hittingCost o.p.bounds = .ok (v, ⊤) ∧ GridPoint o.p.bounds v ∧
      (pobd S B ε h β).next o xs none = .ok (v, none) := by
  obtain ⟨v, a, hv, hvg, ha, -, -⟩ := hittingMinimizer_ok hS hp
  obtain rfl : a = ⊤ := by rcases ha with h | h <;> exact h
  refine ⟨v, hv, hvg, ?_⟩
  have e : (pobd S B ε h β).next o xs none = (pobd S B ε h β).call o (xs.length + 1) xs () := rfl
  rw [e]
  have hm := hp.moves (Config.sub v (latest o.p.bounds.length xs))
    (by simp [Config.sub, inBoxQ_length hvg.1, latest_length _ _ hxs])
  simp only [pobd, hw, assertR, decide_true, if_true, bind, Except.bind, hv, prevX_eq o.p hp.dim, hm]
  show (if 0 < β then (Except.ok (v, none) : Res (Config ℚ × Option Unit)) else _) = _
  rw [if_pos hβ]

end

/-- An instance in which every configuration is infinitely dear, as when a load exceeds the capacity. -/
def exOverload : SCO ℚ Unit Unit where
  d := 1
  tEnd := 1
  bounds := [(0, 1)]
  switchingCost := fun x => .ok |x.headD 0|
  hittingCost := CostFn.new 1 (SingleCostFn.certain fun _ _ => .ok (Cost.raw ⊤))

/-- Non-vacuity: the hypotheses of both theorems hold for `exOverload` in the first slot. -/
example : ∃ S : Solver, Inner S ∧ Slot exOverload ((([] : Schedule ℚ).length : Int) + 1) (fun _ => ⊤) (fun x => |x.headD 0|) := by
  obtain ⟨S, -, hS⟩ := exists_exact
  refine ⟨S, hS, ?_, rfl, ?_, ?_, fun _ _ => rfl⟩
  · intro b hb
    simp only [exOverload, List.mem_singleton] at hb
    subst hb
    exact ⟨by norm_num, ⟨0, by norm_num⟩, ⟨100, by norm_num⟩⟩
  · intro x _
    exact ⟨.success (), by rw [exOverload, CostFn.callCertain_certain _ _ (by simp)]; rfl⟩
  · intro x _
    exact ⟨.success (), by rw [exOverload, CostFn.callMean_certain _ _ (by simp)]; rfl⟩

end Descent
end Soco
