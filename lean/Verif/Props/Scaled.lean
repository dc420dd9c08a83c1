import Verif.Props.Pooling

/-! # C145 for many equal data centers -/

namespace Soco
open Offline SingleType

namespace Pooling
variable {F : Spec.Farm}

theorem slotCost_scale (t : Int) (l j k : ℚ) (hk : 0 < k) (q : ℚ) (h : F.slotCost t l j = (q : ECost)) :
    F.slotCost t (k * l) (k * j) = ((k * q : ℚ) : ECost) := by
  have hu : F.use (k * l) (k * j) = F.use l j := by
    unfold Spec.Farm.use
    rw [show F.time * (k * l) = k * (F.time * l) by ring, show k * j * F.slot = k * (j * F.slot) by ring,
      mul_div_mul_left _ _ hk.ne']
  unfold Spec.Farm.slotCost at h ⊢
  rw [hu]
  by_cases hj : j ≤ 0
  · rw [if_pos hj] at h
    rw [if_pos (by nlinarith : k * j ≤ 0)]
    by_cases hl : l = 0
    · rw [if_pos hl] at h
      have e : q = 0 := (WithTop.coe_injective (show ((0 : ℚ) : ECost) = q from h)).symm
      simp [hl, e]
    · rw [if_neg hl] at h
      exact absurd h.symm WithTop.coe_ne_top
  · rw [if_neg hj] at h
    rw [if_neg (not_le.2 (mul_pos hk (not_le.1 hj)))]
    split_ifs at h ⊢ with hc
    · have e := WithTop.coe_injective h
      rw [← e]
      refine congrArg _ ?_
      ring
    · exact absurd h.symm WithTop.coe_ne_top

theorem total_scale {h h' : Int → ℤ → ECost} {β : ℚ} {k : ℤ} (hk : 0 < k) : ∀ (js : List ℤ) (t : Int) (x : ℤ) (q : ℚ),
    (∀ i < js.length, ∀ q : ℚ, h (t + i) (js.getD i 0) = (q : ECost) → h' (t + i) (k * js.getD i 0) = ((k * q : ℚ) : ECost)) →
    Spec.totalCost h (fun y x : ℤ => β * max 0 ((x : ℚ) - y)) 1 t x js = (q : ECost) →
    Spec.totalCost h' (fun y x : ℤ => β * max 0 ((x : ℚ) - y)) 1 t (k * x) (js.map (k * ·)) = ((k * q : ℚ) : ECost) := by
  intro js
  induction js with
  | nil =>
    intro t x q _ hq
    have : q = 0 := (WithTop.coe_injective (show ((0 : ℚ) : ECost) = q from hq)).symm
    simp [Spec.totalCost, this]
  | cons j js ih =>
    intro t x q hh hq
    simp only [Spec.totalCost, List.map_cons] at hq ⊢
    have hne := hq ▸ (WithTop.coe_ne_top : ((q : ℚ) : ECost) ≠ ⊤)
    rw [WithTop.add_ne_top, WithTop.add_ne_top] at hne
    obtain ⟨⟨n1, n2⟩, n3⟩ := hne
    obtain ⟨a, ha⟩ := WithTop.ne_top_iff_exists.1 n1
    obtain ⟨b, hb⟩ := WithTop.ne_top_iff_exists.1 n3
    have h0 := hh 0 (by simp) a
    simp only [Nat.cast_zero, add_zero, List.getD_cons_zero] at h0
    rw [h0 ha.symm, ih (t + 1) j b (fun i hi => ?_) hb.symm, ← WithTop.coe_add, ← WithTop.coe_add]
    · rw [← ha, ← hb, ← WithTop.coe_add, ← WithTop.coe_add] at hq
      have e := WithTop.coe_injective hq
      rw [← e]
      refine congrArg _ ?_
      have hk' : (0 : ℚ) ≤ k := by exact_mod_cast hk.le
      have : max 0 (((k * j : ℤ) : ℚ) - ((k * x : ℤ) : ℚ)) = k * max 0 ((j : ℚ) - x) := by
        rw [mul_max_of_nonneg _ _ hk', mul_zero]
        push_cast
        ring_nf
      rw [this]
      ring
    · have := hh (i + 1) (by simpa using hi)
      simp only [List.getD_cons_succ, Nat.cast_add, Nat.cast_one] at this
      rwa [show t + 1 + (i : Int) = t + (i + 1) by ring]

end Pooling

open Pooling

/-- **C145** (many data centers). A data center with `k` times as many servers which receives `k` times the loads costs at most `k` times as
much as the original. -/
theorem C145_scaled (S : Num.Solver) (hS : Spec.SolvesEmpty S) (m large : DataCenterModel) (F : Spec.Farm) (k : ℤ) (hk : 0 < k)
    (h : Spec.IsFarm m F) (h' : Spec.IsFarm large { F with servers := k * F.servers }) (hF : F.Valid) (loads : List ℚ)
    (hne : loads ≠ []) (hl : ∀ l ∈ loads, F.Carries l) :
    ∃ xs ys c d, ∃ q : ℚ,
      solveUni (m.toSSCO S (loads.map fun l => [l])) 0 ⟨false, 1, none⟩ = .ok (xs, c) ∧ c.cost = (q : ECost) ∧
      solveUni (large.toSSCO S ((loads.map ((k : ℚ) * ·)).map fun l => [l])) 0 ⟨false, 1, none⟩ = .ok (ys, d) ∧
      d.cost ≤ ((k * q : ℚ) : ECost) := by
  have hkq : (0 : ℚ) < k := by exact_mod_cast hk
  have hF' : Spec.Farm.Valid { F with servers := k * F.servers } :=
    ⟨mul_pos hk hF.servers, hF.slot, hF.time, hF.price, hF.gamma, hF.switching, hF.power, hF.convex⟩
  have hl' : ∀ l ∈ loads.map ((k : ℚ) * ·), Spec.Farm.Carries { F with servers := k * F.servers } l := by
    intro l hm
    obtain ⟨l0, h0, rfl⟩ := List.mem_map.1 hm
    obtain ⟨a, b, c⟩ := hl l0 h0
    have hu : Spec.Farm.use { F with servers := k * F.servers } (k * l0) ((k * F.servers : ℤ) : ℚ) = F.use l0 F.servers := by
      unfold Spec.Farm.use
      push_cast
      rw [show F.time * (k * l0) = k * (F.time * l0) by ring, show (k : ℚ) * F.servers * F.slot = k * (F.servers * F.slot) by ring,
        mul_div_mul_left _ _ hkq.ne']
    exact ⟨mul_nonneg hkq.le a, hu.trans_lt b, hu.trans_le c⟩
  obtain ⟨js, o1, a1, ⟨a2, a2'⟩, a3, _⟩ := C90_optimal_one_dimension S hS m F h hF loads hl hne ⟨false, 1, none⟩ rfl rfl rfl
  obtain ⟨ys, o3, c1, _, _, c4⟩ := C90_optimal_one_dimension S hS large _ h' hF' _ hl' (by simpa using hne)
    ⟨false, 1, none⟩ rfl rfl rfl
  obtain ⟨q, hq⟩ := WithTop.ne_top_iff_exists.1 a3
  refine ⟨_, _, _, _, q, a1, hq.symm, c1, ?_⟩
  refine (c4 (js.map (k * ·)) ⟨by simp [a2], fun j hj => ?_⟩).trans (le_of_eq ?_)
  · obtain ⟨i, hi, rfl⟩ := List.mem_map.1 hj
    exact ⟨mul_nonneg hk.le (a2' i hi).1, mul_le_mul_of_nonneg_left (a2' i hi).2 hk.le⟩
  · have := total_scale (h' := fun t (j : ℤ) => F.slotCost t ((loads.map ((k : ℚ) * ·)).getD (t - 1).toNat 0) j) hk js 1 0 q
      (fun i hi q hq => ?_) hq.symm
    · rw [mul_zero] at this
      exact this
    · have i1 : i < loads.length := by omega
      rw [show ((1 : Int) + i - 1).toNat = i by omega] at hq ⊢
      rw [List.getD_eq_getElem _ _ i1] at hq
      rw [List.getD_eq_getElem _ _ (by simpa using i1), List.getElem_map]
      push_cast
      exact slotCost_scale _ _ _ _ hkq q hq

/-- `Ex.farmModel` with twelve servers instead of four. -/
def Ex.twelveModel : DataCenterModel := { Ex.farmModel with locations := [⟨"a", fun _ => some 12⟩] }

theorem Ex.twelve_is : Spec.IsFarm Ex.twelveModel { Ex.farm with servers := 3 * Ex.farm.servers } :=
  ⟨_, _, _, _, rfl, rfl, rfl, rfl, rfl, rfl, rfl, fun _ _ => rfl, fun u => by
    simp only [Ex.twelveModel, Ex.farmModel, ConsumptionModel.consumption, lookup, bind, Except.bind, Ex.farm]
    congr 1
    ring, fun t p _ => rfl, rfl, ⟨_, rfl, by norm_num [SwitchingCost.switchingCost, Ex.farm]⟩, rfl⟩

/-- Non-vacuity of `C145_scaled`. -/
example (S : Num.Solver) (hS : Spec.SolvesEmpty S) := C145_scaled S hS Ex.farmModel Ex.twelveModel Ex.farm 3 (by norm_num)
  Ex.farm_is Ex.twelve_is Ex.farm_valid [3, 0, 7, 2] (by simp) Ex.farm_carries

end Soco
