import Verif.Props.Pooling

/-!
# C146: a data center in which nothing is better is not cheaper
-/

namespace Soco
open Offline SingleType

/-- Nothing is better in `F'` than in `F`: there are no more servers, they may not be used more, jobs take no less time and are delayed no
less, energy and switching are no cheaper, and no less revenue is lost. -/
structure Spec.Farm.Worse (F F' : Spec.Farm) : Prop where
  servers : F'.servers ≤ F.servers
  slot : F'.slot = F.slot
  maxUse : F'.maxUse ≤ F.maxUse
  time : F.time ≤ F'.time
  route : ∀ t, 1 ≤ t → F.route t ≤ F'.route t
  power : ∀ u, 0 ≤ u → F.power u ≤ F'.power u
  price : ∀ t, 1 ≤ t → F.price t ≤ F'.price t
  gamma : F.gamma ≤ F'.gamma
  delay : F'.delay ≤ F.delay
  switching : F.switching ≤ F'.switching

namespace Worse

variable {F F' : Spec.Farm}

theorem use_le (hF : F.Valid) (W : F.Worse F') {l l' : ℚ} (hl : 0 ≤ l) (hll : l ≤ l') {j : ℚ} (hj : 0 < j) : F.use l j ≤ F'.use l' j := by
  unfold Spec.Farm.use
  rw [W.slot]
  exact div_le_div_of_nonneg_right (mul_le_mul W.time hll hl (hF.time.trans W.time)) (mul_pos hj hF.slot).le

theorem slot_le (hF : F.Valid) (hr : F.Rising) (W : F.Worse F') (t : Int) (ht : 1 ≤ t) {l l' : ℚ} (hl : 0 ≤ l) (hll : l ≤ l') (j : ℚ) :
    F.slotCost t l j ≤ F'.slotCost t l' j := by
  by_cases hj : j ≤ 0
  · simp only [Spec.Farm.slotCost, if_pos hj]
    by_cases h : l' = 0
    · have : l = 0 := le_antisymm (h ▸ hll) hl
      simp [h, this]
    · simp [h]
  · have hj0 := not_le.1 hj
    simp only [Spec.Farm.slotCost, if_neg hj]
    by_cases h : F'.use l' j < 1 ∧ F'.use l' j ≤ F'.maxUse
    swap
    · rw [if_neg h]; exact le_top
    have hu := use_le hF W hl hll hj0
    have hu0 : 0 ≤ F.use l j := div_nonneg (mul_nonneg hF.time hl) (mul_pos hj0 hF.slot).le
    rw [if_pos h, if_pos ⟨hu.trans_lt h.1, (hu.trans h.2).trans W.maxUse⟩]
    refine WithTop.coe_le_coe.2 (add_le_add ?_ ?_)
    · have hp : F.power (F.use l j) ≤ F'.power (F'.use l' j) := (hr _ _ hu0 hu).trans (W.power _ (hu0.trans hu))
      exact mul_le_mul (W.price t ht) (mul_le_mul_of_nonneg_left hp hj0.le) (mul_nonneg hj0.le (hF.power _ hu0))
        ((hF.price t ht).le.trans (W.price t ht))
    · have hd : F.time / (1 - F.use l j) ≤ F'.time / (1 - F'.use l' j) :=
        div_le_div₀ (hF.time.trans W.time) W.time (by linarith [h.1]) (by linarith)
      have hm : max 0 (F.time / (1 - F.use l j) + F.route t + F.time - F.delay) ≤
          max 0 (F'.time / (1 - F'.use l' j) + F'.route t + F'.time - F'.delay) :=
        max_le_max le_rfl (by linarith [W.route t ht, W.time, W.delay])
      have hg := hF.gamma.trans W.gamma
      exact mul_le_mul (mul_le_mul W.gamma hm (le_max_left _ _) hg) hll hl (mul_nonneg hg (le_max_left _ _))

theorem total_le {h h' : Int → ℤ → ECost} {β β' : ℚ} (hβ : β ≤ β') : ∀ (js : List ℤ) (t : Int) (x : ℤ),
    (∀ i < js.length, h (t + i) (js.getD i 0) ≤ h' (t + i) (js.getD i 0)) →
    Spec.totalCost h (fun y x : ℤ => β * max 0 ((x : ℚ) - y)) 1 t x js ≤
      Spec.totalCost h' (fun y x : ℤ => β' * max 0 ((x : ℚ) - y)) 1 t x js := by
  intro js
  induction js with
  | nil => intro t x _; simp [Spec.totalCost]
  | cons j js ih =>
    intro t x hh
    simp only [Spec.totalCost]
    have h0 := hh 0 (by simp)
    simp only [Nat.cast_zero, add_zero, List.getD_cons_zero] at h0
    refine add_le_add (add_le_add h0 (WithTop.coe_le_coe.2 ?_)) (ih (t + 1) j (fun i hi => ?_))
    · rw [one_mul, one_mul]
      exact mul_le_mul_of_nonneg_right hβ (le_max_left _ _)
    · have := hh (i + 1) (by simpa using hi)
      simp only [List.getD_cons_succ, Nat.cast_add, Nat.cast_one] at this
      rwa [show t + 1 + (i : Int) = t + (i + 1) by ring]

theorem plan_le (hF : F.Valid) (hr : F.Rising) (W : F.Worse F') {loads loads' : List ℚ} (hl : ∀ l ∈ loads, 0 ≤ l)
    (hll : List.Forall₂ (· ≤ ·) loads loads') {js : List ℤ} (hj : js.length = loads.length) :
    F.planCost loads js ≤ F'.planCost loads' js := by
  unfold Spec.Farm.planCost
  refine total_le W.switching js 1 0 (fun i hi => ?_)
  rw [show ((1 : Int) + i - 1).toNat = i by omega]
  have i1 : i < loads.length := by omega
  have i2 : i < loads'.length := by rw [← hll.length_eq]; exact i1
  rw [List.getD_eq_getElem _ _ i1, List.getD_eq_getElem _ _ i2]
  exact slot_le hF hr W _ (by omega) (hl _ (List.getElem_mem _)) (hll.get i1 i2) _

theorem carries (hF : F.Valid) (W : F.Worse F') (hs : 0 < F'.servers) {l l' : ℚ} (hl : 0 ≤ l) (hll : l ≤ l') (h : F'.Carries l') :
    F.Carries l := by
  have hs' : (0 : ℚ) < F'.servers := by exact_mod_cast hs
  have h1 := use_le hF W hl hll hs'
  have h2 : F.use l F.servers ≤ F.use l F'.servers := by
    unfold Spec.Farm.use
    exact div_le_div_of_nonneg_left (mul_nonneg hF.time hl) (mul_pos hs' hF.slot)
      (mul_le_mul_of_nonneg_right (by exact_mod_cast W.servers) hF.slot.le)
  have h3 := h2.trans h1
  exact ⟨hl, h3.trans_lt h.2.1, (h3.trans h.2.2).trans W.maxUse⟩

end Worse

/-- **C146**. Let nothing be better in the second of two data centers with one type of servers and jobs, let it receive at least the loads of
the first one, and let the consumption of servers not fall with their utilisation in the first one. The cost computed for the second one is
at least the cost computed for the first one. -/
theorem C146_worse (S : Num.Solver) (hS : Spec.SolvesEmpty S) (m m' : DataCenterModel) (F F' : Spec.Farm) (W : F.Worse F')
    (h : Spec.IsFarm m F) (h' : Spec.IsFarm m' F') (hF : F.Valid) (hF' : F'.Valid) (hr : F.Rising) (loads loads' : List ℚ)
    (hne : loads ≠ []) (hl : ∀ l ∈ loads, 0 ≤ l) (hll : List.Forall₂ (· ≤ ·) loads loads') (hl' : ∀ l ∈ loads', F'.Carries l) :
    ∃ xs xs' c c', solveUni (m.toSSCO S (loads.map fun l => [l])) 0 ⟨false, 1, none⟩ = .ok (xs, c) ∧
      solveUni (m'.toSSCO S (loads'.map fun l => [l])) 0 ⟨false, 1, none⟩ = .ok (xs', c') ∧ c.cost ≤ c'.cost ∧ c'.cost ≠ ⊤ := by
  have hc : ∀ l ∈ loads, F.Carries l := by
    intro l hm
    obtain ⟨i, hi, rfl⟩ := List.mem_iff_getElem.1 hm
    have i2 : i < loads'.length := by rw [← hll.length_eq]; exact hi
    exact Worse.carries hF W hF'.servers (hl _ hm) (hll.get hi i2) (hl' _ (List.getElem_mem _))
  have hpos := List.length_pos_of_ne_nil hne
  have hlen := hll.length_eq
  obtain ⟨js, o1, a1, _, _, a4⟩ := C90_optimal_one_dimension S hS m F h hF loads hc hne ⟨false, 1, none⟩ rfl rfl rfl
  obtain ⟨ks, o2, b1, ⟨b2, b2'⟩, b3, _⟩ := C90_optimal_one_dimension S hS m' F' h' hF' loads' hl' (List.ne_nil_of_length_pos (by omega))
    ⟨false, 1, none⟩ rfl rfl rfl
  exact ⟨_, _, _, _, a1, b1, (a4 ks ⟨by omega, fun j hj => ⟨(b2' j hj).1, (b2' j hj).2.trans W.servers⟩⟩).trans
    (Worse.plan_le hF hr W hl hll (by omega)), b3⟩

/-! ## Examples -/

/-- Non-vacuity of `C146_worse`: fewer servers and more jobs. -/
example (S : Num.Solver) (hS : Spec.SolvesEmpty S) := C146_worse S hS Ex.sixModel Ex.farmModel { Ex.farm with servers := 6 } Ex.farm
  ⟨by decide, rfl, le_rfl, le_rfl, fun _ _ => le_rfl, fun _ _ => le_rfl, fun _ _ => le_rfl, le_rfl, le_rfl, le_rfl⟩ Ex.six_is Ex.farm_is
  ⟨by decide, Ex.farm_valid.slot, Ex.farm_valid.time, Ex.farm_valid.price, Ex.farm_valid.gamma, Ex.farm_valid.switching,
    Ex.farm_valid.power, Ex.farm_valid.convex⟩ Ex.farm_valid Ex.farm_rising [1, 0, 6, 2] [3, 0, 7, 2] (by simp)
  (by intro l hl; simp only [List.mem_cons, List.not_mem_nil, or_false] at hl; rcases hl with rfl | rfl | rfl | rfl <;> norm_num)
  (by refine .cons ?_ (.cons ?_ (.cons ?_ (.cons ?_ .nil))) <;> norm_num) Ex.farm_carries

/-- Servers which consume less the more they are used. -/
def Ex.falling : Spec.Farm := { Ex.farm with power := fun u => max 0 (4 - 4 * u), gamma := 0 }

/-- If consumption falls with the utilisation, more jobs may cost less. -/
theorem C146_rising_needed : Ex.falling.Valid ∧ Ex.falling.Carries 1 ∧ Ex.falling.Carries (6 / 5) ∧
    (∃ plan, Ex.falling.IsPlan [1, 6 / 5] plan ∧ ∀ other, Ex.falling.IsPlan [1, 1] other →
      Ex.falling.planCost [1, 6 / 5] plan < Ex.falling.planCost [1, 1] other) := by
  have hv : Ex.falling.Valid := ⟨Ex.farm_valid.servers, Ex.farm_valid.slot, Ex.farm_valid.time, Ex.farm_valid.price, le_rfl,
    Ex.farm_valid.switching, fun u _ => le_max_left _ _, fun u v _ _ a ha ha' => by
      simp only [Ex.falling]
      have e1 := mul_le_mul_of_nonneg_left (le_max_right 0 (4 - 4 * u)) (by linarith : 0 ≤ 1 - a)
      have e2 := mul_le_mul_of_nonneg_left (le_max_right 0 (4 - 4 * v)) ha
      refine max_le (add_nonneg (mul_nonneg (by linarith) (le_max_left _ _)) (mul_nonneg ha (le_max_left _ _))) ?_
      linarith⟩
  refine ⟨hv, by norm_num [Spec.Farm.Carries, Spec.Farm.use, Ex.falling, Ex.farm], by
    norm_num [Spec.Farm.Carries, Spec.Farm.use, Ex.falling, Ex.farm], [1, 1], ⟨rfl, by
      intro j hj; simp at hj; subst hj; decide⟩, ?_⟩
  rintro other ⟨h1, h2⟩
  obtain ⟨i, j, rfl⟩ := List.length_eq_two.1 h1
  obtain ⟨a, b⟩ := h2 i (by simp)
  obtain ⟨c, d⟩ := h2 j (by simp)
  replace b : i ≤ 4 := b
  replace d : j ≤ 4 := d
  interval_cases i <;> interval_cases j <;>
    norm_num [Spec.Farm.planCost, Spec.totalCost, Spec.Farm.slotCost, Spec.Farm.use, Ex.falling, Ex.farm, ← WithTop.coe_add] <;>
    first | exact WithTop.coe_lt_coe.2 (by norm_num) | exact WithTop.coe_lt_top _

end Soco
