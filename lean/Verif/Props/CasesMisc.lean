import Verif.Props.LazyBudgeting
import Verif.Props.DataCenter
import Verif.Props.Outcomes
import Verif.Props.FeasibleSpaces
import Verif.Props.Convert
import Verif.Props.RobdRatio
import Verif.Props.Robust
import Verif.Props.DualNorm
import Verif.Props.Machine
import Verif.Props.Dearer
import Verif.Props.Limit
import Verif.Props.Descent3
import Verif.Props.Queries
import Verif.Props.MultiGraph2
import Verif.Props.Replan

/-! # Further concrete cases

Every example shows that the hypotheses of the theorem it names are met by a non-trivial case. -/

namespace Soco
open Spec Num

namespace Cases

/-- Non-vacuity of `C32_covers_demand_partial`. -/
example := Lb.C32_covers_demand_partial Lb.gridSolver Lb.gridSolver_shaped false 1 (by norm_num) _ Lb.shown_ok

/-- Non-vacuity of `C45_delay_mono`, `C45_delay_value`, `C45_normalized_idle` and `C45_switching_cost_nonneg`. -/
example := C45_delay_mono (1 / 2) 1 2 (1 / 10) (1 / 5) (by norm_num) (by norm_num) (by norm_num)
example := C45_normalized_idle ⟨2, 1, 3, 1, 4, 1, 2⟩ 1 (by norm_num) (by norm_num) (by norm_num)
example := C45_switching_cost_nonneg ⟨2, 1, 3, 1, 4, 1, 2⟩ (by norm_num) (by norm_num) (by norm_num) (by norm_num) (by norm_num)
  (by norm_num)

/-- Non-vacuity of `C45_revenue_loss`. -/
example (jt : JobType) := C45_revenue_loss (fun _ => some ⟨2, 1⟩) jt ⟨2, 1⟩ rfl (by norm_num) (1 / 2) 3 (by norm_num)

/-- Non-vacuity of `C89_minimize_panics`: the objective fails at a point the solver visits. -/
example := C89_minimize_panics (fun _ _ _ _ => ⟨[[1]], [0], .done⟩) (fun x => if x = [1] then .error .panic else .ok 0) [(0, 1)] none []
  _ rfl (Or.inl ⟨[1], by simp, .panic, by decide +kernel⟩)

/-- Non-vacuity of `C89_root_brackets`: a function without root. -/
example (B B' : Brent) := Descent.C89_root_brackets B B' 0 1 (fun x => .ok (((x + 1 : ℚ)) : Slack)) (by norm_num) _ _ rfl rfl (by decide +kernel)
  (by decide +kernel)

/-- Non-vacuity of `C89_root_panics`. -/
example (B : Brent) := Descent.C89_root_panics B 0 1 (fun x => if x = 1 then .error .panic else .ok 0) (by norm_num) (Or.inr ⟨.panic, by simp⟩)

/-- Non-vacuity of `C78_weights`: strong convexity 4/3, for which the root is 2. -/
example := Descent.C78_weights (4 / 3) 2 (1 / 100) (by norm_num) (by norm_num) (by norm_num) 2 (by norm_num)

/-- Non-vacuity of `C107_costs`. -/
example (n : Nat) (xs : Schedule ℤ) (hl : (xs.length : Int) = n) (hx : ∀ x ∈ xs, InBox [5] x) :=
  C107_costs (Ex.sscoAt n) (Ex.odd n) 1 (1 / 2) (Ex.odd_above n) (le_of_eq rfl) xs hl hx [0] rfl 2 (by norm_num) false

/-- Non-vacuity of `C105_lazy_budgeting`: the third slot of `Lb.shown`. -/
example (S : Num.Solver) (xs : Schedule ℤ) := C105_lazy_budgeting S false ⟨Lb.shown 3, 0⟩ 3 xs (Lb.Memory.dflt 1 ⟨Lb.shown 3, 0⟩)
  (by decide) (by norm_num) (by decide) (by decide) (by norm_num [Lb.Memory.dflt]) (by simp [Lb.shown]) (by simp [Lb.shown])
  (by
    intro k b l h1 h2 _
    match k, h1, h2 with
    | 0, h1, h2 => simp [Lb.shown] at h1 h2; subst h1 h2; norm_num
    | 1, h1, h2 => simp [Lb.shown] at h1 h2; subst h1 h2; norm_num
    | k + 2, h1, h2 => simp [Lb.shown] at h1)

/-- Non-vacuity of `C104_feasible`: costs outside of the bounds. -/
example := C104_feasible Ex.ssco2
  { Ex.ssco2 with
    hittingCost := CostFn.new 1 (SingleCostFn.certain fun t x => if x = [7, 7] then .error .panic else .ok (Cost.raw (Ex.hit2 t x))) }
  ⟨by decide, by decide, rfl, rfl, by decide, by decide +kernel⟩ none .dflt (by simp) rfl rfl rfl rfl (fun t h1 _ _ x hx => by
    have : x ≠ [7, 7] := by
      rintro rfl
      cases hx with
      | cons h _ => exact absurd h.2 (by decide)
    simp only [SSCO.toProb, CostFn.callMeanWithinBounds, Ex.ssco2, CostFn.callMean_certain _ _ h1, if_neg this])

/-- Non-vacuity of `C110_replanned`: following the first plan to the end. -/
example (n : Nat) (o : OfflineOptions) (hl : o.l = none) (hα : 0 ≤ o.alpha) (xs : Schedule ℤ)
    (h : Spec.Replanned o (Ex.sscoAt n) 0 xs) := C110_replanned (Ex.sscoAt_inst n) (Ex.abs_costs n) 0 (by norm_num) o hl hα xs h

open Descent in
/-- Non-vacuity of `C58_pobd_balance_partial`: costs `1 + x`, at `1/2`. Moving to the minimiser is cheap. -/
example : ∃ (S : Solver) (x : Config ℚ), (pobd S someRoot (1 / 100) sqNorm 1).next ⟨exP (fun x => 1 + x) 2, 0⟩ [[1 / 2]] none =
    .ok (x, none) ∧ ∀ y, GridPoint [(0, 1)] y → ((1 + x.headD 0 : ℚ) : ECost) ≤ ((1 + y.headD 0 : ℚ) : ECost) := by
  obtain ⟨S, hE, hS⟩ := exists_exact
  obtain ⟨x, h1, -, h3, -⟩ := C58_pobd_balance_partial S hS hE someRoot ⟨exP (fun x => 1 + x) 2, 0⟩ rfl [[1 / 2]] _ _
    (ex_slot (fun x => 1 + x) 2 _ (by norm_num)) (1 / 100) sqNorm 1 one_pos (by simp [exP])
    (fun v hv _ => by
      obtain ⟨y, rfl, h0, h1⟩ := ex_inv _ _ hv
      refine WithTop.coe_le_coe.2 ?_
      show |y - 1 / 2| ≤ 1 * (1 + y)
      rw [abs_le]
      constructor <;> linarith)
  exact ⟨S, x, h1, h3⟩

end Cases
end Soco
