import Verif.Props.PlanningFrac
import Verif.Props.Scaled

/-!
# C147: fractional costs are convex in the loads
-/

namespace Soco
open Offline SingleType

/-- The weighted mean of two sequences, with weight `a` of the second one. -/
def Spec.meanOf (a : ℚ) (xs ys : List ℚ) : List ℚ := List.zipWith (fun x y => (1 - a) * x + a * y) xs ys

namespace Averaged
variable {F : Spec.Farm}

/-- Costs of a slot are jointly convex in the load and the number of servers. -/
theorem slot_mix (hF : F.Valid) (t : Int) (ht : 1 ≤ t) {a : ℚ} (h0 : 0 ≤ a) (h1 : a ≤ 1) {l l' j j' : ℚ} (hl : 0 ≤ l) (hl' : 0 ≤ l')
    (hj : 0 ≤ j) (hj' : 0 ≤ j') {q q' : ℚ} (hq : F.slotCost t l j = (q : ECost)) (hq' : F.slotCost t l' j' = (q' : ECost)) :
    F.slotCost t ((1 - a) * l + a * l') ((1 - a) * j + a * j') ≤ (((1 - a) * q + a * q' : ℚ) : ECost) := by
  rcases h0.eq_or_lt with rfl | h0
  · simpa using hq.le
  rcases h1.eq_or_lt with rfl | h1
  · simpa using hq'.le
  have hb : 0 < 1 - a := by linarith
  refine (Pooling.slotCost_pool hF t ht _ _ _ _ (mul_nonneg hb.le hl) (mul_nonneg h0.le hl') (mul_nonneg hb.le hj)
    (mul_nonneg h0.le hj')).trans ?_
  rw [Pooling.slotCost_scale t l j (1 - a) hb q hq, Pooling.slotCost_scale t l' j' a h0 q' hq', ← WithTop.coe_add]

theorem total_mix {h h' h'' : Int → ℚ → ECost} {β : ℚ} (hβ : 0 ≤ β) {a : ℚ} (h0 : 0 ≤ a) (h1 : a ≤ 1) :
    ∀ (js ks : List ℚ) (t : Int) (x y : ℚ) (q q' : ℚ), js.length = ks.length →
    (∀ i < js.length, ∀ q q' : ℚ, h (t + i) (js.getD i 0) = (q : ECost) → h' (t + i) (ks.getD i 0) = (q' : ECost) →
      h'' (t + i) ((1 - a) * js.getD i 0 + a * ks.getD i 0) ≤ (((1 - a) * q + a * q' : ℚ) : ECost)) →
    Spec.totalCost h (fun y x : ℚ => β * max 0 (x - y)) 1 t x js = (q : ECost) →
    Spec.totalCost h' (fun y x : ℚ => β * max 0 (x - y)) 1 t y ks = (q' : ECost) →
    Spec.totalCost h'' (fun y x : ℚ => β * max 0 (x - y)) 1 t ((1 - a) * x + a * y) (Spec.meanOf a js ks) ≤
      (((1 - a) * q + a * q' : ℚ) : ECost) := by
  intro js
  induction js with
  | nil =>
    intro ks t x y q q' hlen _ hq hq'
    cases ks with
    | cons _ _ => simp at hlen
    | nil =>
      have e1 : q = 0 := (WithTop.coe_injective (show ((0 : ℚ) : ECost) = q from hq)).symm
      have e2 : q' = 0 := (WithTop.coe_injective (show ((0 : ℚ) : ECost) = q' from hq')).symm
      simp [Spec.meanOf, Spec.totalCost, e1, e2]
  | cons j js ih =>
    intro ks t x y q q' hlen hh hq hq'
    cases ks with
    | nil => simp at hlen
    | cons k ks =>
      simp only [Spec.meanOf, List.zipWith_cons_cons, Spec.totalCost] at hq hq' ⊢
      have hne := hq ▸ (WithTop.coe_ne_top : ((q : ℚ) : ECost) ≠ ⊤)
      have hne' := hq' ▸ (WithTop.coe_ne_top : ((q' : ℚ) : ECost) ≠ ⊤)
      rw [WithTop.add_ne_top, WithTop.add_ne_top] at hne hne'
      obtain ⟨⟨n1, -⟩, n3⟩ := hne
      obtain ⟨⟨m1, -⟩, m3⟩ := hne'
      obtain ⟨c, hc⟩ := WithTop.ne_top_iff_exists.1 n1
      obtain ⟨b, hb⟩ := WithTop.ne_top_iff_exists.1 n3
      obtain ⟨c', hc'⟩ := WithTop.ne_top_iff_exists.1 m1
      obtain ⟨b', hb'⟩ := WithTop.ne_top_iff_exists.1 m3
      rw [← hc, ← hb, ← WithTop.coe_add, ← WithTop.coe_add] at hq
      rw [← hc', ← hb', ← WithTop.coe_add, ← WithTop.coe_add] at hq'
      have e := WithTop.coe_injective hq
      have e' := WithTop.coe_injective hq'
      have g0 := hh 0 (by simp) c c'
      simp only [Nat.cast_zero, add_zero, List.getD_cons_zero] at g0
      have g1 := g0 hc.symm hc'.symm
      have g2 := ih ks (t + 1) j k b b' (by simpa using hlen) (fun i hi => by
        have := hh (i + 1) (by simpa using hi)
        simp only [List.getD_cons_succ, Nat.cast_add, Nat.cast_one] at this
        rwa [show t + 1 + (i : Int) = t + (i + 1) by ring]) hb.symm hb'.symm
      have g3 : 1 * (β * max 0 ((1 - a) * j + a * k - ((1 - a) * x + a * y))) ≤
          (1 - a) * (1 * (β * max 0 (j - x))) + a * (1 * (β * max 0 (k - y))) := by
        have u1 := mul_le_mul_of_nonneg_left (le_max_right 0 (j - x)) (by linarith : 0 ≤ 1 - a)
        have u2 := mul_le_mul_of_nonneg_left (le_max_right 0 (k - y)) h0
        have u3 : max 0 ((1 - a) * j + a * k - ((1 - a) * x + a * y)) ≤ (1 - a) * max 0 (j - x) + a * max 0 (k - y) :=
          max_le (add_nonneg (mul_nonneg (by linarith) (le_max_left _ _)) (mul_nonneg h0 (le_max_left _ _))) (by linarith)
        have := mul_le_mul_of_nonneg_left u3 hβ
        linarith
      refine (add_le_add (add_le_add g1 (WithTop.coe_le_coe.2 g3)) g2).trans (le_of_eq ?_)
      rw [← WithTop.coe_add, ← WithTop.coe_add, ← e, ← e']
      refine congrArg _ ?_
      ring

theorem mean_getD {a : ℚ} {xs ys : List ℚ} {i : Nat} (hi : i < xs.length) (hi' : i < ys.length) :
    (Spec.meanOf a xs ys).getD i 0 = (1 - a) * xs.getD i 0 + a * ys.getD i 0 := by
  unfold Spec.meanOf
  simp [List.getD_eq_getElem?_getD, hi, hi']

theorem mean_length {a : ℚ} {xs ys : List ℚ} (h : xs.length = ys.length) : (Spec.meanOf a xs ys).length = xs.length := by
  simp [Spec.meanOf, h]

theorem mem_mean {a : ℚ} {xs ys : List ℚ} {z : ℚ} (h : z ∈ Spec.meanOf a xs ys) :
    ∃ x ∈ xs, ∃ y ∈ ys, z = (1 - a) * x + a * y := by
  obtain ⟨i, hi, rfl⟩ := List.mem_iff_getElem.1 h
  simp only [Spec.meanOf, List.length_zipWith] at hi
  exact ⟨_, List.getElem_mem (by omega : i < xs.length), _, List.getElem_mem (by omega : i < ys.length), by simp [Spec.meanOf]⟩

end Averaged

open Averaged

/-- **C147** (plans). The weighted mean of two plans is a plan for the weighted mean of their loads, and costs at most the weighted mean
of their costs. -/
theorem C147_plans (F : Spec.Farm) (hF : F.Valid) (a : ℚ) (h0 : 0 ≤ a) (h1 : a ≤ 1) (loads loads' : List ℚ)
    (hlen : loads.length = loads'.length) (hl : ∀ l ∈ loads, 0 ≤ l) (hl' : ∀ l ∈ loads', 0 ≤ l) (plan plan' : List ℚ)
    (hp : F.IsFractionalPlan loads plan) (hp' : F.IsFractionalPlan loads' plan') (q q' : ℚ)
    (hq : F.fractionalCost loads plan = (q : ECost)) (hq' : F.fractionalCost loads' plan' = (q' : ECost)) :
    F.IsFractionalPlan (Spec.meanOf a loads loads') (Spec.meanOf a plan plan') ∧
    F.fractionalCost (Spec.meanOf a loads loads') (Spec.meanOf a plan plan') ≤ (((1 - a) * q + a * q' : ℚ) : ECost) := by
  obtain ⟨p1, p2⟩ := hp
  obtain ⟨p1', p2'⟩ := hp'
  refine ⟨⟨by rw [mean_length hlen, mean_length (by omega), p1], fun j hj => ?_⟩, ?_⟩
  · obtain ⟨x, hx, y, hy, rfl⟩ := mem_mean hj
    have u := p2 x hx
    have v := p2' y hy
    exact ⟨add_nonneg (mul_nonneg (by linarith) u.1) (mul_nonneg h0 v.1), by nlinarith [u.2, v.2]⟩
  · unfold Spec.Farm.fractionalCost at hq hq' ⊢
    have := total_mix (h'' := fun t (j : ℚ) => F.slotCost t ((Spec.meanOf a loads loads').getD (t - 1).toNat 0) j) hF.switching.le h0 h1
      plan plan' 1 0 0 q q' (by omega) (fun i hi c c' hc hc' => ?_) hq hq'
    · simpa using this
    · have i1 : i < loads.length := by omega
      have i2 : i < loads'.length := by omega
      have i3 : i < plan'.length := by omega
      rw [show ((1 : Int) + i - 1).toNat = i by omega] at hc hc' ⊢
      rw [mean_getD i1 i2]
      rw [List.getD_eq_getElem _ _ i1, List.getD_eq_getElem _ _ hi] at *
      rw [List.getD_eq_getElem _ _ i2, List.getD_eq_getElem _ _ i3] at *
      exact slot_mix hF _ (by omega) h0 h1 (hl _ (List.getElem_mem _)) (hl' _ (List.getElem_mem _)) (p2 _ (List.getElem_mem _)).1
        (p2' _ (List.getElem_mem _)).1 hc hc'

/-- **C147**. The cost computed by backward-recurrent capacity provisioning for the weighted mean of two sequences of loads is at most the
weighted mean of the costs computed for the two, given an exact optimiser and loads with cheapest plans. -/
theorem C147_backward (S : Num.Solver) (hS : Spec.SolvesEmpty S) (opt : Lcp.Minimizer) (hopt : Spec.ExactMinimizer opt) (m : DataCenterModel)
    (F : Spec.Farm) (h : Spec.IsFarm m F) (hF : F.Valid) (a : ℚ) (h0 : 0 ≤ a) (h1 : a ≤ 1) (loads loads' : List ℚ)
    (hlen : loads.length = loads'.length) (hl : ∀ l ∈ loads, F.Carries l) (hl' : ∀ l ∈ loads', F.Carries l)
    (hc : ∀ k, F.HasCheapest (loads.take k)) (hc' : ∀ k, F.HasCheapest (loads'.take k))
    (hcm : ∀ k, F.HasCheapest ((Spec.meanOf a loads loads').take k)) :
    ∃ xs xs' ys c c' d, ∃ q q' : ℚ,
      solveBackward opt (m.toSSCO S (loads.map fun l => [l])) ⟨false, 1, none⟩ = .ok (xs, c) ∧ c.cost = (q : ECost) ∧
      solveBackward opt (m.toSSCO S (loads'.map fun l => [l])) ⟨false, 1, none⟩ = .ok (xs', c') ∧ c'.cost = (q' : ECost) ∧
      solveBackward opt (m.toSSCO S ((Spec.meanOf a loads loads').map fun l => [l])) ⟨false, 1, none⟩ = .ok (ys, d) ∧
      d.cost ≤ (((1 - a) * q + a * q' : ℚ) : ECost) := by
  have hlm : ∀ l ∈ Spec.meanOf a loads loads', F.Carries l := by
    intro l hm
    obtain ⟨x, hx, y, hy, rfl⟩ := mem_mean hm
    obtain ⟨u0, u1, u2⟩ := hl x hx
    obtain ⟨v0, v1, v2⟩ := hl' y hy
    have e : F.use ((1 - a) * x + a * y) F.servers = (1 - a) * F.use x F.servers + a * F.use y F.servers := by
      unfold Spec.Farm.use; ring
    refine ⟨add_nonneg (mul_nonneg (by linarith) u0) (mul_nonneg h0 v0), ?_, ?_⟩
    · rw [e]; exact Pooling.lt_mix u1 v1 h0 h1
    · rw [e]; nlinarith
  obtain ⟨plan, o1, a1, a2, a3, _⟩ := C95_backward S m F h hF loads hl hS opt hopt hc
  obtain ⟨plan', o2, b1, b2, b3, _⟩ := C95_backward S m F h hF loads' hl' hS opt hopt hc'
  obtain ⟨best, o3, c1, _, _, c4⟩ := C95_backward S m F h hF _ hlm hS opt hopt hcm
  obtain ⟨q, hq⟩ := WithTop.ne_top_iff_exists.1 a3
  obtain ⟨q', hq'⟩ := WithTop.ne_top_iff_exists.1 b3
  obtain ⟨d1, d2⟩ := C147_plans F hF a h0 h1 loads loads' hlen (fun l hm => (hl l hm).1) (fun l hm => (hl' l hm).1) plan plan' a2 b2 q q'
    hq.symm hq'.symm
  exact ⟨_, _, _, _, _, _, q, q', a1, hq.symm, b1, hq'.symm, c1, (c4 _ d1).trans d2⟩

/-! ## Examples -/

/-- `C145_saves` also shows that whole servers are not averaged: half a job costs at least 14/3, but no job costs nothing, and a job 6. -/
theorem C147_integral_counterexample : Spec.meanOf (1 / 2) [0] [1] = [1 / 2] ∧
    (∀ plan, Ex.farm.IsPlan [1 / 2] plan → ((14 / 3 : ℚ) : ECost) ≤ Ex.farm.planCost [1 / 2] plan) ∧
    Ex.farm.planCost [0] [0] = ((0 : ℚ) : ECost) ∧ Ex.farm.planCost [1] [1] = ((6 : ℚ) : ECost) := by
  refine ⟨by norm_num [Spec.meanOf], C145_saves.1, ?_, ?_⟩
  · norm_num [Spec.Farm.planCost, Spec.totalCost, Spec.Farm.slotCost, Spec.Farm.use, Ex.farm]
  · norm_num [Spec.Farm.planCost, Spec.totalCost, Spec.Farm.slotCost, Spec.Farm.use, Ex.farm]

/-- Non-vacuity of `C147_plans`. -/
example := C147_plans Ex.farm Ex.farm_valid (1 / 3) (by norm_num) (by norm_num) [1 / 2] [1] rfl (by simp) (by simp) [1] [1]
  ⟨rfl, by simp [Ex.farm]⟩ ⟨rfl, by simp [Ex.farm]⟩ (14 / 3) 6
  (by
    norm_num [Spec.Farm.fractionalCost, Spec.totalCost, Spec.Farm.slotCost, Spec.Farm.use, Ex.farm]
    exact (WithTop.coe_add (5 / 3 : ℚ) 3).symm.trans (congrArg _ (by norm_num)))
  (by norm_num [Spec.Farm.fractionalCost, Spec.totalCost, Spec.Farm.slotCost, Spec.Farm.use, Ex.farm, ← WithTop.coe_add])

/-- Steady loads have cheapest plans in the data center without loss of revenue: `c` jobs need `5 / 9 * c` servers. -/
theorem Ex.patient_steady (c : ℚ) (hc : 0 < c) (hc' : c ≤ 36 / 5) (n k : Nat) :
    Ex.patientFarm.HasCheapest ((List.replicate n c).take k) := by
  have hload : ∀ t : Int, 1 ≤ t → t ≤ (((List.replicate n c).take k).length : Int) →
      ((List.replicate n c).take k).getD (t - 1).toNat 0 = c := by
    intro t h1 h2
    have hlt : (t - 1).toNat < ((List.replicate n c).take k).length := by omega
    rw [List.getD_eq_getElem _ _ hlt]
    exact (List.mem_replicate.1 (List.mem_of_mem_take (List.getElem_mem hlt))).2
  have huse : ∀ i : ℚ, Ex.patientFarm.use c i = c / 2 / i := by
    intro i
    simp only [Spec.Farm.use, Ex.patientFarm, Ex.farm, mul_one]
    ring
  refine Planning.cheapest_constant Ex.patient_valid (5 / 9 * c) (by linarith) (by norm_num [Ex.patientFarm, Ex.farm]; linarith) ?_ ?_
  · intro t h1 h2 i hi
    rw [hload t h1 h2]
    unfold Spec.Farm.slotCost
    split_ifs with h3 h4 h5
    · exact absurd h4 hc.ne'
    · rfl
    · exfalso
      rw [huse] at h5
      have h6 : c / 2 / i ≤ 9 / 10 := h5.2
      rw [div_le_iff₀ (not_le.1 h3)] at h6
      linarith
    · rfl
  · intro t h1 h2 i hi _
    rw [hload t h1 h2]
    have hj0 : 0 < 5 / 9 * c := by linarith
    have hi0 : (0 : ℚ) < i := by linarith
    have h5 : ∀ i : ℚ, 0 < i → 5 / 9 * c ≤ i → c / 2 / i ≤ 9 / 10 := by
      intro i hi0 hi
      rw [div_le_iff₀ hi0]
      linarith
    have h6 : ∀ i : ℚ, 0 < i → i * (c / 2 / i + 1) = c / 2 + i := by
      intro i hi
      field_simp
    have hp : 0 < Ex.patientFarm.price t := Ex.patient_valid.price t h1
    have hm : Ex.patientFarm.maxUse = 9 / 10 := rfl
    unfold Spec.Farm.slotCost
    rw [huse, huse, hm, if_neg (not_le.2 hj0), if_neg (not_le.2 hi0), if_pos ⟨by linarith [h5 _ hj0 le_rfl], h5 _ hj0 le_rfl⟩,
      if_pos ⟨by linarith [h5 _ hi0 hi], h5 _ hi0 hi⟩]
    refine WithTop.coe_le_coe.2 ?_
    have e : ∀ x : ℚ, Ex.patientFarm.gamma * x * c = 0 := by
      intro x
      simp [Ex.patientFarm]
    have ep : ∀ u : ℚ, Ex.patientFarm.power u = u + 1 := fun _ => rfl
    rw [e, e, add_zero, add_zero, ep, ep, h6 _ hi0, h6 _ hj0]
    exact mul_le_mul_of_nonneg_left (by linarith) hp.le

/-- Non-vacuity of `C147_backward`. -/
example (S : Num.Solver) (hS : Spec.SolvesEmpty S) (opt : Lcp.Minimizer) (hopt : Spec.ExactMinimizer opt) (n : Nat) :=
  C147_backward S hS opt hopt Ex.patientModel Ex.patientFarm Ex.patient_is Ex.patient_valid (1 / 4) (by norm_num) (by norm_num)
    (List.replicate n 2) (List.replicate n 6) (by simp)
    (by intro l hl; rw [(List.mem_replicate.1 hl).2]; norm_num [Spec.Farm.Carries, Spec.Farm.use, Ex.patientFarm, Ex.farm])
    (by intro l hl; rw [(List.mem_replicate.1 hl).2]; norm_num [Spec.Farm.Carries, Spec.Farm.use, Ex.patientFarm, Ex.farm])
    (Ex.patient_steady 2 (by norm_num) (by norm_num) n) (Ex.patient_steady 6 (by norm_num) (by norm_num) n)
    (by
      have e : Spec.meanOf (1 / 4) (List.replicate n 2) (List.replicate n 6) = List.replicate n 3 := by
        simp only [Spec.meanOf, List.zipWith_replicate, min_self]
        norm_num
      rw [e]
      exact Ex.patient_steady 3 (by norm_num) (by norm_num) n)

end Soco
