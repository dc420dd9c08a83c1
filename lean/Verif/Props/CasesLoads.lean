import Verif.Props.BalancedBudgeting
import Verif.Props.Loads
import Verif.Props.InitialLoads
import Verif.Props.Solve
import Verif.Props.SolveLoads

/-! # Concrete cases of the theorems about loads

Every example shows that the hypotheses of the theorem it names are met by a non-trivial case. -/

namespace Soco
open Spec Bb Offline

namespace Cases

theorem found {α β : Type} {r : Res α} {f : α → β} {b : β} (h : r.toOption.map f = some b) : ∃ c, r = .ok c ∧ f c = b := by
  cases r with
  | error e => simp [Except.toOption] at h
  | ok c => exact ⟨c, rfl, by simpa [Except.toOption] using h⟩

theorem affine_mean (a : ℚ) (t : Int) (ht : 1 ≤ t) (y : ℚ) : (affine a).callMean t y = .ok ⟨((a + y : ℚ) : ECost), .none⟩ := by
  unfold affine
  rw [CostFn.callMean_certain _ _ ht]

/-- The costs of one server of `balanced`. -/
def perServer (k : Nat) (y : ℚ) : ECost := (((if k = 0 then 1 else 3 / 2) + y : ℚ) : ECost)

theorem perServer_costs (n : Nat) (t : Int) (ht : 1 ≤ t) (k : Nat) (g : CostFn ℚ Unit DCFailure) (y : ℚ) (c : Cost Unit DCFailure)
    (h : (balanced n).hittingCost[k]? = some g) (hc : g.callMean t y = .ok c) : c.cost = perServer k y := by
  match k, h with
  | 0, h =>
    simp only [balanced, List.getElem?_cons_zero, Option.some.injEq] at h
    subst h; rw [affine_mean _ t ht] at hc; cases hc; rfl
  | 1, h =>
    simp only [balanced, List.getElem?_cons_succ, List.getElem?_cons_zero, Option.some.injEq] at h
    subst h; rw [affine_mean _ t ht] at hc; cases hc; rfl
  | k + 2, h => simp [balanced] at h

/-- Non-vacuity of `C40_balanced`: two types, one server each, a load of 2 in slot 2. -/
example : ∃ c, (balanced 3).hitCost Lb.gridSolver 2 [1, 1] = .ok c ∧ c.cost = ((9 / 2 : ℚ) : ECost) ∧
    ∃ loads costs, Spec.Balanced perServer [1, 1] 2 loads costs ∧ c.cost = costs.sum := by
  obtain ⟨c, h, hc⟩ := found (r := (balanced 3).hitCost Lb.gridSolver 2 [1, 1]) (f := (·.cost))
    (b := ((9 / 2 : ℚ) : ECost)) (by decide +kernel)
  refine ⟨c, h, hc, ?_⟩
  rcases C40_balanced Lb.gridSolver Lb.gridSolver_shaped (balanced 3) (by decide) 2 [1, 1] (by decide) (by unfold Spec.InBox; decide) 2
    (by decide) (by decide) perServer (fun k g y c h hc => perServer_costs 3 2 (by decide) k g y c h hc) c h with h' | h'
  · simp [h'] at hc
  · simpa [toQ] using h'

/-- Non-vacuity of `C40_no_active_servers`: no servers, a load of 2. -/
example : ∃ c, (balanced 3).hitCost Lb.gridSolver 2 [0, 0] = .ok c ∧ c.cost = ⊤ := by
  obtain ⟨c, h, hc⟩ := found (f := fun _ => ()) (b := ())
    (show ((balanced 3).hitCost Lb.gridSolver 2 [0, 0]).toOption.map (fun _ => ()) = _ by decide +kernel)
  exact ⟨c, h, C40_no_active_servers Lb.gridSolver Lb.gridSolver_shaped (balanced 3) (by decide) 2 [0, 0] (by decide)
    (by unfold Spec.InBox; decide) 2 (by decide) (by decide) perServer (fun k g y c h hc => perServer_costs 3 2 (by decide) k g y c h hc)
    (by decide) c h⟩

/-- Non-vacuity of `C34_lazy_budgeting`. -/
example := C34_lazy_budgeting Lb.gridSolver 2 [1, 1] [2, 1] 2 (by norm_num) _ balanced_shown

/-- Non-vacuity of `C40_assigned_partial` and `C40_conserved_iff`: two types of jobs on two dimensions. -/
example : ∃ loads, (List.range 2).mapM ((⟨[1 / 2, 1 / 4], 2, 2⟩ : LoadFractions).selectLoads [3, 1]) = .ok loads ∧
    (loads.map fun l => l.getD 0 0).sum ≠ 3 := by
  obtain ⟨loads, h, -⟩ := C40_assigned_partial ⟨[1 / 2, 1 / 4], 2, 2⟩ [3, 1] (by decide) rfl rfl (by norm_num)
  refine ⟨loads, h, fun hc => ?_⟩
  have := (C40_conserved_iff ⟨[1 / 2, 1 / 4], 2, 2⟩ [3, 1] (by decide) rfl rfl (by norm_num) 0 (by decide) loads h).1 (by simpa using hc)
  norm_num at this

/-- Non-vacuity of `C40_conservation_single`: one type of job on three dimensions. -/
example := C40_conservation_single ⟨[1 / 2, 1 / 4], 3, 1⟩ 8 (by decide) rfl rfl (by norm_num)

/-- Non-vacuity of `C40_nonneg_single`, for the last of three dimensions. -/
example : ∃ loads, (LoadFractions.new [1 / 2, 1 / 4] 3 1).selectLoads [8] 2 = .ok loads ∧ ∀ q ∈ loads, 0 ≤ q := by
  obtain ⟨loads, h, -⟩ := found (f := fun l => l) (b := [2])
    (show ((LoadFractions.new [1 / 2, 1 / 4] 3 1).selectLoads [8] 2).toOption.map (fun l => l) = _ by decide +kernel)
  obtain ⟨c, hc, hc'⟩ := found (f := fun c => c) (b := 1 / 4)
    (show ((LoadFractions.new [1 / 2, 1 / 4] 3 1).get 2 0 [8]).toOption.map (fun c => c) = _ by decide +kernel)
  refine ⟨loads, h, C40_nonneg_single [1 / 2, 1 / 4] 3 8 (by decide) rfl (by norm_num) ?_ c hc ?_ 2 (by decide) loads h⟩
  · intro q hq
    simp only [List.mem_cons, List.not_mem_nil, or_false] at hq
    rcases hq with rfl | rfl <;> norm_num
  · rw [show c = 1 / 4 from hc']
    norm_num [Num.tolerance, Num.precision]

/-- Non-vacuity of `C40_initial_idle`. -/
example := C40_initial_idle (T := ℤ) 2 3 (by decide) [0, 0, 0] (by decide)

/-- Non-vacuity of `C56_output_consistent`, by the computation of the hitting cost above, and of `C55_finite_cost_partial`. -/
example : ∃ c, (SLO.intoSBLO { thirds with load := [2] }).hitCost Lb.gridSolver 1 [1, 2] = .ok c ∧
    ({ thirds with load := [2] } : SLO ℤ).hitCost 1 [1, 2] = .ok (Cost.raw c.cost) := by
  obtain ⟨c, h, hc⟩ := found (r := (SLO.intoSBLO { thirds with load := [2] }).hitCost Lb.gridSolver 1 [1, 2]) (f := (·.cost))
    (b := ((4 : ℚ) : ECost)) (by decide +kernel)
  exact ⟨c, h, (C55_finite_cost_partial Lb.gridSolver Lb.gridSolver_shaped { thirds with load := [2] } (by decide) rfl rfl 1 [1, 2]
    (by decide) (by unfold Spec.InBox; decide) 2 (by decide) (by decide) c h (by rw [hc]; exact WithTop.coe_ne_top)).2⟩

theorem balanced_hit (t : Int) (h1 : 1 ≤ t) (h3 : t ≤ 3) (x : Config ℤ) (hx : Spec.InBox [1, 1] x) :
    ∃ out, (balanced 3).hitCost Lb.gridSolver t x = .ok ⟨balancedCost Lb.gridSolver (balanced 3) t x, out⟩ := by
  have : ((balanced 3).hitCost Lb.gridSolver t x).toOption.isSome := by
    have hx' := Lb.inBox_one_one hx
    have ht : t = 1 ∨ t = 2 ∨ t = 3 := by omega
    rcases ht with rfl | rfl | rfl <;> rcases hx' with rfl | rfl | rfl | rfl <;> decide +kernel
  cases h : (balanced 3).hitCost Lb.gridSolver t x with
  | error e => rw [h] at this; simp [Except.toOption] at this
  | ok c => exact ⟨c.output, by simp [balancedCost, h]⟩

/-- Non-vacuity of `C67_sblo_optimal`: three slots with the loads 1, 2 and 0. -/
example := C67_sblo_optimal Lb.gridSolver (balanced 3) (found (f := fun _ => ()) (b := ())
    (show (balanced 3).verify.toOption.map (fun _ => ()) = _ by decide +kernel)).choose_spec.1 (by decide) .dflt rfl
  (by norm_num [OfflineOptions.dflt]) (balancedCost Lb.gridSolver (balanced 3)) (fun t h1 h3 x hx => balanced_hit t h1 h3 x hx)
  (fun t h1 h3 => by
    have ht : t = 1 ∨ t = 2 ∨ t = 3 := by
      have : t ≤ 3 := h3
      omega
    rcases ht with rfl | rfl | rfl <;> decide +kernel)

/-- Non-vacuity of `C68_slo_optimal_partial`. -/
example := C68_slo_optimal_partial Lb.gridSolver Lb.gridSolver_shaped (Lb.shown 3) (Lb.shown_ok.1 _ (by simp)) (by decide)

end Cases
end Soco
