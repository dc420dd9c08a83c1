import Verif.Props.Timeless
import Verif.Props.Pooling

/-!
# C139: mixed prices of energy in data centers with one type of servers
-/

namespace Soco
open Offline SingleType

/-- The prices `q` with weight `w`, and the prices `p` with the remaining weight. -/
def Spec.mixedPrices (w : ℚ) (p q : Int → ℚ) : Int → ℚ := fun t => (1 - w) * p t + w * q t

namespace MixedFarm

theorem slot (F : Spec.Farm) (p q : Int → ℚ) (w : ℚ) (t : Int) (l j : ℚ) {z : ℚ}
    (h : { F with price := Spec.mixedPrices w p q : Spec.Farm }.slotCost t l j = z) :
    ∃ u v : ℚ, { F with price := p : Spec.Farm }.slotCost t l j = u ∧ { F with price := q : Spec.Farm }.slotCost t l j = v ∧
      (1 - w) * u + w * v = z := by
  unfold Spec.Farm.slotCost at h ⊢
  have e1 : ∀ p : Int → ℚ, { F with price := p : Spec.Farm }.use l j = F.use l j := fun _ => rfl
  simp only [e1] at h ⊢
  split_ifs at h ⊢ with h1 h2 h3
  · have := WithTop.coe_eq_coe.1 (h : ((0 : ℚ) : ECost) = z)
    exact ⟨0, 0, rfl, rfl, by rw [← this]; ring⟩
  · exact absurd h WithTop.top_ne_coe
  · exact ⟨_, _, rfl, rfl, by
      rw [← WithTop.coe_eq_coe.1 h]
      unfold Spec.mixedPrices
      ring⟩
  · exact absurd h WithTop.top_ne_coe

theorem total {g h k : Int → ℤ → ECost} {β w : ℚ}
    (H : ∀ t j (z : ℚ), k t j = z → ∃ u v : ℚ, g t j = u ∧ h t j = v ∧ (1 - w) * u + w * v = z) :
    ∀ (js : List ℤ) (t : Int) (x : ℤ) (z : ℚ), Spec.totalCost k (fun y x : ℤ => β * max 0 ((x : ℚ) - y)) 1 t x js = z →
      ∃ u v : ℚ, Spec.totalCost g (fun y x : ℤ => β * max 0 ((x : ℚ) - y)) 1 t x js = u ∧
        Spec.totalCost h (fun y x : ℤ => β * max 0 ((x : ℚ) - y)) 1 t x js = v ∧ (1 - w) * u + w * v = z := by
  intro js
  induction js with
  | nil =>
    intro t x z hz
    have := WithTop.coe_eq_coe.1 (hz : ((0 : ℚ) : ECost) = z)
    exact ⟨0, 0, rfl, rfl, by rw [← this]; ring⟩
  | cons j js ih =>
    intro t x z hz
    simp only [Spec.totalCost] at hz ⊢
    obtain ⟨z1, z2, h1, h2, h3⟩ := WithTop.add_eq_coe.1 hz
    obtain ⟨z3, z4, h4, h5, h6⟩ := WithTop.add_eq_coe.1 h1.symm
    obtain ⟨u, v, a1, a2, a3⟩ := H t j z3 h4.symm
    obtain ⟨u', v', b1, b2, b3⟩ := ih (t + 1) j z2 h2.symm
    have h5' := WithTop.coe_eq_coe.1 h5
    refine ⟨u + z4 + u', v + z4 + v', ?_, ?_, by rw [← h3, ← h6, ← a3, ← b3]; ring⟩
    · rw [a1, b1, ← h5, WithTop.coe_add, WithTop.coe_add]
    · rw [a2, b2, ← h5, WithTop.coe_add, WithTop.coe_add]

end MixedFarm

/-- **C139** (plans of data centers). Under mixed prices of energy every plan which carries the loads costs the mean of what it costs under
either prices. -/
theorem C139_farm_plans (F : Spec.Farm) (p q : Int → ℚ) (w : ℚ) (loads : List ℚ) (plan : List ℤ) (z : ℚ)
    (h : { F with price := Spec.mixedPrices w p q : Spec.Farm }.planCost loads plan = z) :
    ∃ u v : ℚ, { F with price := p : Spec.Farm }.planCost loads plan = u ∧ { F with price := q : Spec.Farm }.planCost loads plan = v ∧
      (1 - w) * u + w * v = z :=
  MixedFarm.total (fun t j _ hz => MixedFarm.slot F p q w t _ j hz) plan 1 0 z h

/-- **C139** (data centers). Let three data centers with one type of servers and jobs differ in the prices of energy only, and let the
prices of the third be weighted means of the others. The cost computed for the third is at least the weighted mean of the costs computed
for the others. -/
theorem C139_single_type (S : Num.Solver) (hS : Spec.SolvesEmpty S) (m m' m'' : DataCenterModel) (F : Spec.Farm) (p q : Int → ℚ) (w : ℚ)
    (hw : 0 ≤ w) (hw' : w ≤ 1) (h : Spec.IsFarm m { F with price := p }) (h' : Spec.IsFarm m' { F with price := q })
    (h'' : Spec.IsFarm m'' { F with price := Spec.mixedPrices w p q }) (hp : { F with price := p : Spec.Farm }.Valid)
    (hq : ∀ t, 1 ≤ t → 0 < q t) (loads : List ℚ) (hne : loads ≠ []) (hl : ∀ l ∈ loads, F.Carries l) :
    ∃ xs ys zs c d e, ∃ u v z : ℚ, solveUni (m.toSSCO S (loads.map fun l => [l])) 0 ⟨false, 1, none⟩ = .ok (xs, c) ∧ c.cost = u ∧
      solveUni (m'.toSSCO S (loads.map fun l => [l])) 0 ⟨false, 1, none⟩ = .ok (ys, d) ∧ d.cost = v ∧
      solveUni (m''.toSSCO S (loads.map fun l => [l])) 0 ⟨false, 1, none⟩ = .ok (zs, e) ∧ e.cost = z ∧ (1 - w) * u + w * v ≤ z := by
  have hr : ∀ t, 1 ≤ t → 0 < Spec.mixedPrices w p q t := by
    intro t ht
    have h1 : 0 < p t := hp.price t ht
    have h2 := hq t ht
    unfold Spec.mixedPrices
    rcases eq_or_lt_of_le hw' with e | e
    · subst e; linarith
    · have := mul_pos (by linarith : 0 < 1 - w) h1
      have := mul_nonneg hw h2.le
      linarith
  have vq : { F with price := q : Spec.Farm }.Valid := { hp with price := hq }
  have vr : { F with price := Spec.mixedPrices w p q : Spec.Farm }.Valid := { hp with price := hr }
  obtain ⟨js, o1, a1, -, -, a4⟩ := C90_optimal_one_dimension S hS m _ h hp loads hl hne ⟨false, 1, none⟩ rfl rfl rfl
  obtain ⟨ks, o2, b1, -, -, b4⟩ := C90_optimal_one_dimension S hS m' _ h' vq loads hl hne ⟨false, 1, none⟩ rfl rfl rfl
  obtain ⟨ls, o3, c1, c2, c3, -⟩ := C90_optimal_one_dimension S hS m'' _ h'' vr loads hl hne ⟨false, 1, none⟩ rfl rfl rfl
  obtain ⟨z, hz⟩ := WithTop.ne_top_iff_exists.1 c3
  obtain ⟨u, v, hu, hv, hs⟩ := C139_farm_plans F p q w loads ls z hz.symm
  have l1 := a4 ls c2
  have l2 := b4 ls c2
  rw [hu] at l1
  rw [hv] at l2
  obtain ⟨u', hu', hu2⟩ := WithTop.le_coe_iff.1 l1
  obtain ⟨v', hv', hv2⟩ := WithTop.le_coe_iff.1 l2
  refine ⟨_, _, _, _, _, _, u', v', z, a1, hu', b1, hv', c1, hz.symm, ?_⟩
  have := mul_le_mul_of_nonneg_left hu2 (by linarith : 0 ≤ 1 - w)
  have := mul_le_mul_of_nonneg_left hv2 hw
  linarith

/-! ## Examples -/

/-- The data center of `Ex.farm` with other prices. -/
def Ex.pricedModel (f : Int → ℚ) : DataCenterModel := { Ex.farmModel with energyModel := .linear fun _ => some f }

theorem Ex.priced_is (f : Int → ℚ) : Spec.IsFarm (Ex.pricedModel f) { Ex.farm with price := f } :=
  ⟨_, _, _, _, rfl, rfl, rfl, rfl, rfl, rfl, rfl, fun _ _ => rfl, fun u => by
    simp only [Ex.pricedModel, Ex.farmModel, ConsumptionModel.consumption, lookup, bind, Except.bind, Ex.farm]
    congr 1
    ring, fun t p _ => rfl, rfl, ⟨_, rfl, by norm_num [SwitchingCost.switchingCost, Ex.farm]⟩, rfl⟩

/-- Non-vacuity of `C139_single_type`: prices by day and by night, and constant ones. -/
example (S : Num.Solver) (hS : Spec.SolvesEmpty S) := C139_single_type S hS (Ex.pricedModel fun t => if t % 2 = 0 then 3 else 1)
  (Ex.pricedModel fun _ => 2) (Ex.pricedModel _) Ex.farm _ _ (1 / 3) (by norm_num) (by norm_num) (Ex.priced_is _) (Ex.priced_is _)
  (Ex.priced_is _) { Ex.farm_valid with price := fun t _ => by dsimp only; split_ifs <;> norm_num } (fun _ _ => by norm_num) [3, 0, 7, 2]
  (by simp) Ex.farm_carries

/-- Non-vacuity of `C139_farm_plans`. -/
example : ∃ z : ℚ, { Ex.farm with price := Spec.mixedPrices (1 / 3) (fun _ => 1) (fun t => t) : Spec.Farm }.planCost [3, 1] [2, 1] = z :=
  ⟨_, by
    norm_num [Spec.Farm.planCost, Spec.totalCost, Spec.Farm.slotCost, Spec.Farm.use, Ex.farm, Spec.mixedPrices, ← WithTop.coe_add]
    rfl⟩

end Soco
