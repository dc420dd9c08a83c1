import Verif.Props.Fewer
import Verif.Props.Planning

/-!
# C145: pooling two data centers never costs more
-/

namespace Soco
open Offline SingleType

namespace Pooling

variable {F : Spec.Farm}

/-- The utilisation of the pooled servers is between those of the two groups. -/
theorem use_mix (hF : F.Valid) (l l' j j' : ℚ) (hj : 0 < j) (hj' : 0 < j') :
    F.use (l + l') (j + j') = (1 - j' / (j + j')) * F.use l j + j' / (j + j') * F.use l' j' := by
  have := hF.slot.ne'
  have := hj.ne'
  have := hj'.ne'
  have : j + j' ≠ 0 := (add_pos hj hj').ne'
  unfold Spec.Farm.use
  field_simp
  ring

theorem lt_mix {u v a : ℚ} (hu : u < 1) (hv : v < 1) (h0 : 0 ≤ a) (h1 : a ≤ 1) : (1 - a) * u + a * v < 1 := by
  have hM : max u v < 1 := max_lt hu hv
  have e1 := mul_le_mul_of_nonneg_left (le_max_left u v) (by linarith : 0 ≤ 1 - a)
  have e2 := mul_le_mul_of_nonneg_left (le_max_right u v) h0
  linarith

theorem inv_mix {u v a : ℚ} (hu : u < 1) (hv : v < 1) (h0 : 0 ≤ a) (h1 : a ≤ 1) :
    1 / (1 - ((1 - a) * u + a * v)) ≤ (1 - a) * (1 / (1 - u)) + a * (1 / (1 - v)) := by
  have hx : 0 < 1 - u := by linarith
  have hy : 0 < 1 - v := by linarith
  have hz : 0 < 1 - ((1 - a) * u + a * v) := by linarith [lt_mix hu hv h0 h1]
  rw [div_le_iff₀ hz]
  have e : ((1 - a) * (1 / (1 - u)) + a * (1 / (1 - v))) * (1 - ((1 - a) * u + a * v)) =
      1 + a * (1 - a) * ((u - v) ^ 2 / ((1 - u) * (1 - v))) := by
    field_simp
    ring
  rw [e]
  have : 0 ≤ a * (1 - a) * ((u - v) ^ 2 / ((1 - u) * (1 - v))) :=
    mul_nonneg (mul_nonneg h0 (by linarith)) (div_nonneg (sq_nonneg _) (mul_pos hx hy).le)
  linarith

/-- The loss of revenue per job is a convex function of the utilisation. -/
theorem loss_mix {T c u v a : ℚ} (hT : 0 ≤ T) (hu : u < 1) (hv : v < 1) (h0 : 0 ≤ a) (h1 : a ≤ 1) :
    max 0 (T / (1 - ((1 - a) * u + a * v)) + c) ≤ (1 - a) * max 0 (T / (1 - u) + c) + a * max 0 (T / (1 - v) + c) := by
  have h := mul_le_mul_of_nonneg_left (inv_mix hu hv h0 h1) hT
  have e : ∀ x : ℚ, T / x = T * (1 / x) := fun x => by ring
  have a1 := mul_le_mul_of_nonneg_left (le_max_right 0 (T / (1 - u) + c)) (by linarith : 0 ≤ 1 - a)
  have a2 := mul_le_mul_of_nonneg_left (le_max_right 0 (T / (1 - v) + c)) h0
  refine max_le ?_ ?_
  · exact add_nonneg (mul_nonneg (by linarith) (le_max_left _ _)) (mul_nonneg h0 (le_max_left _ _))
  · refine le_trans ?_ (add_le_add a1 a2)
    rw [e, e (1 - u), e (1 - v)]
    nlinarith

theorem loss_mono {T c u v : ℚ} (hT : 0 ≤ T) (hv : v < 1) (h : u ≤ v) :
    max 0 (T / (1 - u) + c) ≤ max 0 (T / (1 - v) + c) :=
  max_le_max le_rfl (add_le_add (div_le_div_of_nonneg_left hT (by linarith) (by linarith)) le_rfl)

/-- The pooled servers lose no more revenue. -/
theorem pooled_loss (hF : F.Valid) {c l l' j j' : ℚ} (hl : 0 ≤ l) (hl' : 0 ≤ l') (hj : 0 < j) (hj' : 0 < j')
    (h1 : F.use l j < 1) (h2 : F.use l' j' < 1) :
    max 0 (F.time / (1 - F.use (l + l') (j + j')) + c) * (l + l') ≤
      max 0 (F.time / (1 - F.use l j) + c) * l + max 0 (F.time / (1 - F.use l' j') + c) * l' := by
  have hJ : 0 < j + j' := add_pos hj hj'
  have ha0 : 0 ≤ j' / (j + j') := (div_pos hj' hJ).le
  have ha1 : j' / (j + j') ≤ 1 := (div_le_one hJ).2 (by linarith)
  rcases hF.time.eq_or_lt with hT | hT
  · rw [← hT]
    simp only [zero_div, zero_add]
    linarith
  have key := loss_mix (c := c) hF.time h1 h2 ha0 ha1
  rw [← use_mix hF l l' j j' hj hj'] at key
  have hs := hF.slot
  have el : l = F.slot / F.time * (j * F.use l j) := by unfold Spec.Farm.use; field_simp
  have el' : l' = F.slot / F.time * (j' * F.use l' j') := by unfold Spec.Farm.use; field_simp
  have cheb : 0 ≤ (F.use l j - F.use l' j') *
      (max 0 (F.time / (1 - F.use l j) + c) - max 0 (F.time / (1 - F.use l' j') + c)) := by
    rcases le_total (F.use l j) (F.use l' j') with h | h
    · exact mul_nonneg_of_nonpos_of_nonpos (by linarith) (by linarith [loss_mono (c := c) hF.time h2 h])
    · exact mul_nonneg (by linarith) (by linarith [loss_mono (c := c) hF.time h1 h])
  refine (mul_le_mul_of_nonneg_right key (add_nonneg hl hl')).trans ?_
  generalize hD : max 0 (F.time / (1 - F.use l j) + c) = D at *
  generalize hD' : max 0 (F.time / (1 - F.use l' j') + c) = D' at *
  generalize F.use l j = u at *
  generalize F.use l' j' = u' at *
  have hk : 0 < F.slot / F.time := div_pos hs hT
  have : D * l + D' * l' - ((1 - j' / (j + j')) * D + j' / (j + j') * D') * (l + l') =
      F.slot / F.time * (j * j' / (j + j')) * ((u - u') * (D - D')) := by
    rw [el, el']
    field_simp
    ring
  have : 0 ≤ F.slot / F.time * (j * j' / (j + j')) * ((u - u') * (D - D')) :=
    mul_nonneg (mul_nonneg hk.le (div_pos (mul_pos hj hj') hJ).le) cheb
  linarith

/-- Together, two groups of servers process their loads at no greater cost than on their own. -/
theorem slotCost_pool (hF : F.Valid) (t : Int) (ht : 1 ≤ t) (l l' j j' : ℚ) (hl : 0 ≤ l) (hl' : 0 ≤ l') (hj : 0 ≤ j) (hj' : 0 ≤ j') :
    F.slotCost t (l + l') (j + j') ≤ F.slotCost t l j + F.slotCost t l' j' := by
  rcases hj.eq_or_lt with rfl | hj
  · by_cases h : l = 0
    · subst h
      simp only [zero_add]
      exact le_add_of_nonneg_left (slotCost_nonneg hF t ht 0 le_rfl 0)
    · have : F.slotCost t l 0 = ⊤ := by simp [Spec.Farm.slotCost, h]
      rw [this, WithTop.top_add]
      exact le_top
  rcases hj'.eq_or_lt with rfl | hj'
  · by_cases h : l' = 0
    · subst h
      simp only [add_zero]
      exact le_add_of_nonneg_right (slotCost_nonneg hF t ht 0 le_rfl 0)
    · have : F.slotCost t l' 0 = ⊤ := by simp [Spec.Farm.slotCost, h]
      rw [this, WithTop.add_top]
      exact le_top
  have hJ : 0 < j + j' := add_pos hj hj'
  have ha0 : 0 ≤ j' / (j + j') := (div_pos hj' hJ).le
  have ha1 : j' / (j + j') ≤ 1 := (div_le_one hJ).2 (by linarith)
  have hm := use_mix hF l l' j j' hj hj'
  by_cases h1 : F.use l j < 1 ∧ F.use l j ≤ F.maxUse
  swap
  · have : F.slotCost t l j = ⊤ := by simp only [Spec.Farm.slotCost, if_neg (not_le.2 hj), if_neg h1]
    rw [this, WithTop.top_add]
    exact le_top
  by_cases h2 : F.use l' j' < 1 ∧ F.use l' j' ≤ F.maxUse
  swap
  · have : F.slotCost t l' j' = ⊤ := by simp only [Spec.Farm.slotCost, if_neg (not_le.2 hj'), if_neg h2]
    rw [this, WithTop.add_top]
    exact le_top
  have h3 : F.use (l + l') (j + j') < 1 ∧ F.use (l + l') (j + j') ≤ F.maxUse := by
    rw [hm]
    obtain ⟨a1, a2⟩ := h1
    obtain ⟨b1, b2⟩ := h2
    exact ⟨lt_mix a1 b1 ha0 ha1, by nlinarith⟩
  have hu : 0 ≤ F.use l j := div_nonneg (mul_nonneg hF.time hl) (mul_nonneg hj.le hF.slot.le)
  have hu' : 0 ≤ F.use l' j' := div_nonneg (mul_nonneg hF.time hl') (mul_nonneg hj'.le hF.slot.le)
  have hp := hF.convex _ _ hu hu' _ ha0 ha1
  rw [← hm] at hp
  have hpow : (j + j') * F.power (F.use (l + l') (j + j')) ≤ j * F.power (F.use l j) + j' * F.power (F.use l' j') := by
    have := mul_le_mul_of_nonneg_left hp hJ.le
    have e : (j + j') * ((1 - j' / (j + j')) * F.power (F.use l j) + j' / (j + j') * F.power (F.use l' j')) =
        j * F.power (F.use l j) + j' * F.power (F.use l' j') := by
      field_simp
      ring
    rwa [e] at this
  have hloss := pooled_loss hF (c := F.route t + F.time - F.delay) hl hl' hj hj' h1.1 h2.1
  simp only [Spec.Farm.slotCost, if_neg (not_le.2 hj), if_neg (not_le.2 hj'), if_neg (not_le.2 hJ), if_pos h1, if_pos h2, if_pos h3,
    ← WithTop.coe_add]
  refine WithTop.coe_le_coe.2 ?_
  have g1 := mul_le_mul_of_nonneg_left hpow (hF.price t ht).le
  have g2 := mul_le_mul_of_nonneg_left hloss hF.gamma
  have e : ∀ x : ℚ, x + F.route t + F.time - F.delay = x + (F.route t + F.time - F.delay) := fun x => by ring
  simp only [e]
  nlinarith

theorem total_pool {h h' h'' : Int → ℤ → ECost} {β : ℚ} (hβ : 0 ≤ β) : ∀ (js ks : List ℤ) (t : Int) (x y : ℤ), js.length = ks.length →
    (∀ i < js.length, h'' (t + i) (js.getD i 0 + ks.getD i 0) ≤ h (t + i) (js.getD i 0) + h' (t + i) (ks.getD i 0)) →
    Spec.totalCost h'' (fun y x : ℤ => β * max 0 ((x : ℚ) - y)) 1 t (x + y) (List.zipWith (· + ·) js ks) ≤
      Spec.totalCost h (fun y x : ℤ => β * max 0 ((x : ℚ) - y)) 1 t x js +
        Spec.totalCost h' (fun y x : ℤ => β * max 0 ((x : ℚ) - y)) 1 t y ks := by
  intro js
  induction js with
  | nil => intro ks t x y hlen _; cases ks <;> simp [Spec.totalCost] at hlen ⊢
  | cons j js ih =>
    intro ks t x y hlen hh
    cases ks with
    | nil => simp at hlen
    | cons k ks =>
      simp only [List.zipWith_cons_cons, Spec.totalCost]
      have h0 := hh 0 (by simp)
      simp only [Nat.cast_zero, add_zero, List.getD_cons_zero] at h0
      have h1 := ih ks (t + 1) j k (by simpa using hlen) (fun i hi => by
        have := hh (i + 1) (by simpa using hi)
        simp only [List.getD_cons_succ, Nat.cast_add, Nat.cast_one] at this
        rwa [show t + 1 + (i : Int) = t + (i + 1) by ring])
      have h2 : ((1 * (β * max 0 (((j + k : ℤ) : ℚ) - ((x + y : ℤ) : ℚ))) : ℚ) : ECost) ≤
          ((1 * (β * max 0 ((j : ℚ) - x)) : ℚ) : ECost) + ((1 * (β * max 0 ((k : ℚ) - y)) : ℚ) : ECost) := by
        rw [← WithTop.coe_add]
        refine WithTop.coe_le_coe.2 ?_
        rw [one_mul, one_mul, one_mul, ← mul_add]
        refine mul_le_mul_of_nonneg_left (max_le (add_nonneg (le_max_left _ _) (le_max_left _ _)) ?_) hβ
        push_cast
        linarith [le_max_right 0 ((j : ℚ) - x), le_max_right 0 ((k : ℚ) - y)]
      refine (add_le_add (add_le_add h0 h2) h1).trans (le_of_eq ?_)
      rw [add_add_add_comm (h t j), add_add_add_comm]

theorem pooled_plan (hF : F.Valid) {loads loads' : List ℚ} (hlen : loads.length = loads'.length) (hl : ∀ l ∈ loads, 0 ≤ l)
    (hl' : ∀ l ∈ loads', 0 ≤ l) {js ks : List ℤ} (h1 : js.length = loads.length) (h2 : ks.length = loads'.length)
    (hj : ∀ j ∈ js, 0 ≤ j) (hk : ∀ j ∈ ks, 0 ≤ j) :
    F.planCost (List.zipWith (· + ·) loads loads') (List.zipWith (· + ·) js ks) ≤ F.planCost loads js + F.planCost loads' ks := by
  unfold Spec.Farm.planCost
  refine total_pool (x := 0) (y := 0) hF.switching.le js ks 1 (by omega) (fun i hi => ?_)
  rw [show ((1 : Int) + i - 1).toNat = i by omega]
  have i1 : i < loads.length := by omega
  have i2 : i < loads'.length := by omega
  have i3 : i < ks.length := by omega
  have e : (List.zipWith (· + ·) loads loads').getD i 0 = loads.getD i 0 + loads'.getD i 0 := by
    simp [List.getD_eq_getElem?_getD, i1, i2]
  rw [e]
  push_cast
  rw [List.getD_eq_getElem _ _ i1, List.getD_eq_getElem _ _ i2, List.getD_eq_getElem _ _ hi, List.getD_eq_getElem _ _ i3]
  exact slotCost_pool hF _ (by omega) _ _ _ _ (hl _ (List.getElem_mem _)) (hl' _ (List.getElem_mem _))
    (by exact_mod_cast hj _ (List.getElem_mem _)) (by exact_mod_cast hk _ (List.getElem_mem _))

theorem pooled_carries (hF : F.Valid) {s : ℤ} (hs : 0 < s) {l l' : ℚ} (h : F.Carries l) (h' : Spec.Farm.Carries { F with servers := s } l') :
    Spec.Farm.Carries { F with servers := F.servers + s } (l + l') := by
  obtain ⟨a0, a1, a2⟩ := h
  obtain ⟨b0, b1, b2⟩ := h'
  have hj : (0 : ℚ) < F.servers := by exact_mod_cast hF.servers
  have hj' : (0 : ℚ) < s := by exact_mod_cast hs
  have hJ := add_pos hj hj'
  have ha0 : (0 : ℚ) ≤ s / (F.servers + s) := (div_pos hj' hJ).le
  have ha1 : (s : ℚ) / (F.servers + s) ≤ 1 := (div_le_one hJ).2 (by linarith)
  have hm := use_mix hF l l' F.servers s hj hj'
  have c1 : F.use l' s < 1 := b1
  have c2 : F.use l' s ≤ F.maxUse := b2
  have e : Spec.Farm.use { F with servers := F.servers + s } (l + l') ((F.servers + s : ℤ) : ℚ) = F.use (l + l') (F.servers + s) := by
    push_cast
    rfl
  refine ⟨add_nonneg a0 b0, ?_, ?_⟩
  · show Spec.Farm.use { F with servers := F.servers + s } (l + l') ((F.servers + s : ℤ) : ℚ) < 1
    rw [e, hm]
    exact lt_mix a1 c1 ha0 ha1
  · show Spec.Farm.use { F with servers := F.servers + s } (l + l') ((F.servers + s : ℤ) : ℚ) ≤ F.maxUse
    rw [e, hm]
    nlinarith

end Pooling

open Pooling

/-- **C145**. Two data centers with the same type of servers and jobs, at the same prices and delays, and a third one with the servers of
both which receives the loads of both: the cost computed for the third one is at most the sum of the costs computed for the two. -/
theorem C145_pooling (S : Num.Solver) (hS : Spec.SolvesEmpty S) (m m' pooled : DataCenterModel) (F : Spec.Farm) (s : ℤ) (hs : 0 < s)
    (h : Spec.IsFarm m F) (h' : Spec.IsFarm m' { F with servers := s }) (hp : Spec.IsFarm pooled { F with servers := F.servers + s })
    (hF : F.Valid) (loads loads' : List ℚ) (hne : loads ≠ []) (hlen : loads.length = loads'.length)
    (hl : ∀ l ∈ loads, F.Carries l) (hl' : ∀ l ∈ loads', Spec.Farm.Carries { F with servers := s } l) :
    ∃ xs xs' ys c c' d,
      solveUni (m.toSSCO S (loads.map fun l => [l])) 0 ⟨false, 1, none⟩ = .ok (xs, c) ∧
      solveUni (m'.toSSCO S (loads'.map fun l => [l])) 0 ⟨false, 1, none⟩ = .ok (xs', c') ∧
      solveUni (pooled.toSSCO S ((List.zipWith (· + ·) loads loads').map fun l => [l])) 0 ⟨false, 1, none⟩ = .ok (ys, d) ∧
      d.cost ≤ c.cost + c'.cost ∧ d.cost ≠ ⊤ := by
  have hF' : Spec.Farm.Valid { F with servers := s } := ⟨hs, hF.slot, hF.time, hF.price, hF.gamma, hF.switching, hF.power, hF.convex⟩
  have hFp : Spec.Farm.Valid { F with servers := F.servers + s } :=
    ⟨add_pos hF.servers hs, hF.slot, hF.time, hF.price, hF.gamma, hF.switching, hF.power, hF.convex⟩
  have hlp : ∀ l ∈ List.zipWith (· + ·) loads loads', Spec.Farm.Carries { F with servers := F.servers + s } l := by
    intro l hm
    obtain ⟨i, hi, rfl⟩ := List.mem_iff_getElem.1 hm
    rw [List.getElem_zipWith]
    exact pooled_carries hF hs (hl _ (List.getElem_mem _)) (hl' _ (List.getElem_mem _))
  have hlz : (List.zipWith (· + ·) loads loads').length = loads.length := by simp [hlen]
  have hpos := List.length_pos_of_ne_nil hne
  obtain ⟨js, o1, a1, ⟨a2, a2'⟩, _, _⟩ := C90_optimal_one_dimension S hS m F h hF loads hl hne ⟨false, 1, none⟩ rfl rfl rfl
  obtain ⟨ks, o2, b1, ⟨b2, b2'⟩, _, _⟩ := C90_optimal_one_dimension S hS m' _ h' hF' loads' hl' (List.ne_nil_of_length_pos (by omega))
    ⟨false, 1, none⟩ rfl rfl rfl
  obtain ⟨ys, o3, c1, _, c3, c4⟩ := C90_optimal_one_dimension S hS pooled _ hp hFp _ hlp (List.ne_nil_of_length_pos (by omega))
    ⟨false, 1, none⟩ rfl rfl rfl
  refine ⟨_, _, _, _, _, _, a1, b1, c1, ?_, c3⟩
  refine (c4 (List.zipWith (· + ·) js ks) ⟨by simp [a2, b2], fun j hj => ?_⟩).trans ?_
  · obtain ⟨i, hi, rfl⟩ := List.mem_iff_getElem.1 hj
    rw [List.getElem_zipWith]
    have u1 := a2' _ (List.getElem_mem (by simp at hi; omega : i < js.length))
    have u2 := b2' _ (List.getElem_mem (by simp at hi; omega : i < ks.length))
    exact ⟨add_nonneg u1.1 u2.1, add_le_add u1.2 u2.2⟩
  · exact pooled_plan hF hlen (fun l hm => (hl l hm).1) (fun l hm => (hl' l hm).1) a2 b2 (fun j hj => (a2' j hj).1) (fun j hj => (b2' j hj).1)

/-! ## Examples -/

/-- `Ex.farmModel` with six servers instead of four. -/
def Ex.sixModel : DataCenterModel := { Ex.farmModel with locations := [⟨"a", fun _ => some 6⟩] }

theorem Ex.six_is : Spec.IsFarm Ex.sixModel { Ex.farm with servers := 6 } :=
  ⟨_, _, _, _, rfl, rfl, rfl, rfl, rfl, rfl, rfl, fun _ _ => rfl, fun u => by
    simp only [Ex.sixModel, Ex.farmModel, ConsumptionModel.consumption, lookup, bind, Except.bind, Ex.farm]
    congr 1
    ring, fun t p _ => rfl, rfl, ⟨_, rfl, by norm_num [SwitchingCost.switchingCost, Ex.farm]⟩, rfl⟩

/-- Non-vacuity of `C145_pooling`. -/
example (S : Num.Solver) (hS : Spec.SolvesEmpty S) := C145_pooling S hS Ex.farmModel Ex.sixModel Ex.largeModel Ex.farm 6 (by norm_num)
  Ex.farm_is Ex.six_is Ex.large_is Ex.farm_valid [3, 0, 7, 2] [1, 10, 0, 2] (by simp) rfl Ex.farm_carries (by
    intro l hl
    simp only [List.mem_cons, List.not_mem_nil, or_false] at hl
    rcases hl with rfl | rfl | rfl | rfl <;> norm_num [Spec.Farm.Carries, Spec.Farm.use, Ex.farm])

/-- Pooling may save costs: half a job costs at least 14/3 in each of two data centers, and a whole job costs at most 6 if they are pooled. -/
theorem C145_saves : (∀ plan, Ex.farm.IsPlan [1 / 2] plan → ((14 / 3 : ℚ) : ECost) ≤ Ex.farm.planCost [1 / 2] plan) ∧
    Spec.Farm.planCost { Ex.farm with servers := 8 } [1 / 2 + 1 / 2] [1] = ((6 : ℚ) : ECost) := by
  constructor
  · rintro plan ⟨h1, h2⟩
    obtain ⟨j, rfl⟩ := List.length_eq_one_iff.1 h1
    obtain ⟨a, b⟩ := h2 j (by simp)
    replace b : j ≤ 4 := b
    simp only [Spec.Farm.planCost, Spec.totalCost, add_zero]
    rcases a.eq_or_lt with rfl | a
    · simp [Spec.Farm.slotCost]
    · have hj : ¬ ((j : ℚ) ≤ 0) := not_le.2 (by exact_mod_cast a)
      simp only [Spec.Farm.slotCost, if_neg hj]
      split_ifs
      · rw [← WithTop.coe_add]
        refine WithTop.coe_le_coe.2 ?_
        interval_cases j <;> norm_num [Spec.Farm.use, Ex.farm]
      · rw [WithTop.top_add]; exact le_top
  · norm_num [Spec.Farm.planCost, Spec.totalCost, Spec.Farm.slotCost, Spec.Farm.use, Ex.farm]

end Soco
