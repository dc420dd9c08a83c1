import Verif.Props.MultiGraph2
import Verif.Props.UniGraph2
import Verif.Props.ApproxGraph
import Verif.Props.LcpWindow
import Verif.Props.Outputs
import Verif.Props.RoundedWholeGrid
import Verif.Props.RoundedWhole
import Verif.Props.Units

/-! # Concrete cases of the theorems about objectives and searches

Every example shows that the hypotheses of the theorem it names are met by a non-trivial case. -/

namespace Soco
open Spec

namespace Cases

theorem ok_of {α : Type} {r : Res α} (h : r.toOption.isSome) : ∃ c, r = .ok c := by
  cases r with
  | error e => simp [Except.toOption] at h
  | ok c => exact ⟨c, rfl⟩

/-- Non-vacuity of `C02_objective_fails`: in slot 2 the hitting cost is not defined. -/
example := C02_objective_fails (Prob.mk (T := ℤ) (C := Unit) (D := Unit) 1 3
    (fun t _ => if t = 2 then .error .panic else .ok (Cost.raw 0)) (fun _ _ _ => .ok 0)) [[1], [1], [0]] [0] 1 false 1 3
  (by decide) (by decide) .panic rfl

/-- Non-vacuity of `C03_monotone_in_alpha`. -/
example : ∃ c c', Ex.ssco2.toProb.alphaUnfairObjective Ex.xs2 2 = .ok c ∧ Ex.ssco2.toProb.alphaUnfairObjective Ex.xs2 3 = .ok c' ∧
    c.cost ≤ c'.cost := by
  obtain ⟨c, hc⟩ := ok_of (r := Ex.ssco2.toProb.alphaUnfairObjective Ex.xs2 2) (by decide +kernel)
  obtain ⟨c', hc'⟩ := ok_of (r := Ex.ssco2.toProb.alphaUnfairObjective Ex.xs2 3) (by decide +kernel)
  exact ⟨c, c', hc, hc', C03_monotone_in_alpha Ex.ssco2.toProb [3, 1 / 2] (SSCO.simplified _) Ex.xs2 rfl (by decide) (by decide) rfl
    (by simp) 2 3 (by norm_num) c c' hc hc'⟩

/-- Non-vacuity of `C03_nonneg`: the movement of `Ex.ssco2`, and a hitting cost of one per server. -/
example := C03_nonneg (Prob.mk (T := ℤ) (C := Unit) (D := Unit) 2 3 (fun _ x => .ok (Cost.raw (((|x.sum| : ℤ) : ℚ) : ECost)))
    Ex.ssco2.toProb.movement) [3, 1 / 2] (SSCO.simplified Ex.ssco2) Ex.xs2 rfl (by decide) (by decide) rfl (by simp) 2 (by norm_num)
  (fun t x c h => by
    cases h
    have : (0 : ℚ) ≤ ((|x.sum| : ℤ) : ℚ) := by exact_mod_cast abs_nonneg _
    exact WithTop.coe_le_coe.2 this)

/-- Non-vacuity of `C16_any_costs`: the schedule found for `Ex.ssco1`. -/
example : ∃ P, Uni.optimalGraphSearch Ex.ssco1 0 ⟨false, 1, none⟩ = .ok P ∧ P.cost ≠ ⊤ ∧ ∃ q, Uni.roundBound Ex.ssco1 = .ok q ∧
    ∃ out, q.toProb.objectiveWithDefault' P.xs [0] 1 false 4 = .ok ⟨P.cost, out⟩ := by
  obtain ⟨P, h1, -, -, -, h5⟩ := C17_optimal Ex.ssco1 (by decide +kernel) rfl 5 rfl 0 (by omega) ⟨false, 1, none⟩ rfl (by norm_num)
    (fun t j => (((|j - t| : ℤ) : ℚ) : ECost)) (fun t h1 _ j h0 hj => Ex.ssco1_hit t h1 j h0 hj) (fun _ _ _ => WithTop.coe_ne_top)
    (fun t h1 h2 j => (Ex.abs_costs 4).nonneg t h1 h2 j) (fun t h1 h2 => (Ex.abs_costs 4).conv t h1 h2)
  obtain ⟨c, hc, hle⟩ := h5 [[1], [2], [2], [2]] rfl (by unfold InBox; decide)
  have hf : P.cost ≠ ⊤ := by
    intro h
    rw [h, top_le_iff] at hle
    have : (Ex.ssco1.toProb.objectiveWithDefault' [[1], [2], [2], [2]] [0] 1 false 4).toOption.map (·.cost) = some ((7 : ℚ) : ECost) := by
      decide +kernel
    rw [show (4 : Int) = Ex.ssco1.tEnd from rfl, hc] at this
    simp [Except.toOption, hle] at this
  obtain ⟨q, q1, -, -, q4⟩ := C16_any_costs Ex.ssco1 (by decide +kernel) rfl 5 rfl 0 ⟨false, 1, none⟩
    (fun t j => (((|j - t| : ℤ) : ℚ) : ECost)) (fun t h1 _ j h0 hj => Ex.ssco1_hit t h1 j h0 hj) P h1 hf
  exact ⟨P, h1, hf, q, q1, q4⟩

/-- Non-vacuity of `C23_multi_inverted_minimises_plain_partial`. -/
example := C23_multi_inverted_minimises_plain_partial Ex.ssco2 (by decide +kernel) (by decide) 2 (by norm_num) Ex.hitBox2
  (fun t ht _ x hx => Ex.ssco2_hitBox t ht x hx) Ex.ssco2_top

/-- Non-vacuity of `C23_uni_inverted_partial`. -/
example := C23_uni_inverted_partial Ex.ssco1 (by decide +kernel) rfl 5 rfl (fun t j => (((|j - t| : ℤ) : ℚ) : ECost))
  (fun t h1 _ j h0 hj => Ex.ssco1_hit t h1 j h0 hj) (fun _ _ _ => WithTop.coe_ne_top)
  (fun t h1 h2 j => (Ex.abs_costs 4).nonneg t h1 h2 j) (fun t h1 h2 => (Ex.abs_costs 4).conv t h1 h2)

/-- Non-vacuity of `C21_resume`: the first two of the three slots of `Ex.ssco2`. -/
example : ∃ r, Multi.optimalGraphSearch { Ex.ssco2 with tEnd := 2 } none .dflt = .ok r ∧
    Multi.optimalGraphSearch Ex.ssco2 (some r.cache) .dflt = Multi.optimalGraphSearch Ex.ssco2 none .dflt := by
  obtain ⟨r, hr⟩ := ok_of (r := Multi.optimalGraphSearch { Ex.ssco2 with tEnd := 2 } none .dflt) (by decide +kernel)
  exact ⟨r, hr, (C21_resume { Ex.ssco2 with tEnd := 2 } Ex.ssco2 rfl rfl rfl (by decide) (by decide) (fun _ _ _ _ => rfl) none
    (by simp) .dflt r hr).2⟩

/-- Non-vacuity of `C24_gaps`, `C24_grid_exact`, `C24_one_on_grid` and `C24_gamma_le_one_diverges`. -/
example := C24_gaps (3 / 2) (by norm_num) [10, 7] (by decide) (by decide)
example := C24_grid_exact (3 / 2) (by norm_num) [10, 7] (by decide) (by decide)
example := C24_one_on_grid (3 / 2) (by norm_num) (by norm_num) [10, 7] (by decide) (by decide)
example := C24_gamma_le_one_diverges (1 / 2) (by norm_num) (by norm_num) [10, 7] (by decide) (by decide)

/-- Non-vacuity of `C28_bounds_end_optima` and `C28_bounds_ordered_and_sandwich`, with any number of slots. -/
example (n : Nat) (hn : 1 ≤ n) := C28_bounds_end_optima (Ex.sscoAt n) 5 2 _ n hn (Ex.sscoAt_inst n) (Ex.abs_costs n)
example (n : Nat) := C28_bounds_ordered_and_sandwich ((List.range (n + 1)).map fun k => Ex.sscoAt (k + 1)) (by simp)
  (Ex.abs_costs _) (fun k hk => by
    simp only [List.getElem_map, List.getElem_range]
    exact Ex.sscoAt_inst (k + 1))

/-- Non-vacuity of `C101_window_bounds`, with any number of slots and any window. -/
example (n w : Nat) := C101_window_bounds w ((List.range (n + 1)).map fun k => Ex.sscoAt (k + 1)) (by simp)
  (Ex.abs_costs _) (fun k hk => by
    simp only [List.getElem_map, List.getElem_range]
    exact Ex.sscoAt_foresight (k + 1) w)
  (Ex.sscoAt (n + 1 + w)) (by simpa using Ex.sscoAt_inst (n + 1 + w))

/-- Non-vacuity of `C126_one_dimension`: four servers, costs up to 1000 and a thousand slots. -/
example (o : OfflineOptions) (ho : o.alpha = 1) := C126_one_dimension (C126_double 0) (Ex.fourAt 1000) 4 1004 2 1 (by norm_num)
  ((C13_is_pow_of_2 _).2 ⟨2, rfl⟩) rfl (by norm_num [Ex.fourAt, Ex.ssco1])
  (fun t h1 h2 j h3 h4 c hc => by
    obtain ⟨out, ho⟩ := Ex.fourAt_hit 1000 t h1 j h3 h4
    rw [ho] at hc
    rw [← Except.ok.inj hc]
    exact Ex.abs_multiple 1000 t h1 h2 j h3 h4) o le_rfl (by simpa using ho) (by decide +kernel) 0 le_rfl (by norm_num)

end Cases
end Soco
