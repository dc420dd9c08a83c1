import Verif.Props.Averaged

/-!
# C148: even demand is cheapest
-/

namespace Soco
open Offline SingleType

/-- Prices and delays do not depend on time. -/
def Spec.Farm.Constant (F : Spec.Farm) : Prop := ∀ t, 1 ≤ t → F.price t = F.price 1 ∧ F.route t = F.route 1

/-- The loads with the same number of jobs in every slot and as many jobs in total. -/
def Spec.evened (loads : List ℚ) : List ℚ := List.replicate loads.length (loads.sum / loads.length)

namespace Evened
variable {F : Spec.Farm}

theorem slot_one (hc : F.Constant) (t : Int) (ht : 1 ≤ t) (l j : ℚ) : F.slotCost t l j = F.slotCost 1 l j := by
  unfold Spec.Farm.slotCost
  rw [(hc t ht).1, (hc t ht).2]

/-- Processing all loads at once with the sum of all servers, and starting the most servers once, costs no more than a plan. -/
theorem total_pooled (hF : F.Valid) {h : Int → ℚ → ECost} : ∀ (js ls : List ℚ) (t : Int) (x : ℚ), js.length = ls.length →
    (∀ i < js.length, h (t + i) (js.getD i 0) = F.slotCost 1 (ls.getD i 0) (js.getD i 0)) → (∀ l ∈ ls, 0 ≤ l) → (∀ j ∈ js, 0 ≤ j) →
    F.slotCost 1 ls.sum js.sum ≤ Spec.totalCost h (fun y x : ℚ => F.switching * max 0 (x - y)) 1 t x js ∧
    ∀ z ∈ js, F.slotCost 1 ls.sum js.sum + ((F.switching * max 0 (z - x) : ℚ) : ECost) ≤
      Spec.totalCost h (fun y x : ℚ => F.switching * max 0 (x - y)) 1 t x js := by
  intro js
  induction js with
  | nil =>
    intro ls t x hlen _ _ _
    cases ls with
    | cons _ _ => simp at hlen
    | nil => simp [Spec.totalCost, Spec.Farm.slotCost]
  | cons j js ih =>
    intro ls t x hlen hh hl hj
    cases ls with
    | nil => simp at hlen
    | cons l ls =>
      have g0 := hh 0 (by simp)
      simp only [Nat.cast_zero, add_zero, List.getD_cons_zero] at g0
      obtain ⟨i1, i2⟩ := ih ls (t + 1) j (by simpa using hlen) (fun i hi => by
        have := hh (i + 1) (by simpa using hi)
        simp only [List.getD_cons_succ, Nat.cast_add, Nat.cast_one] at this
        rwa [show t + 1 + (i : Int) = t + (i + 1) by ring]) (fun l hm => hl l (List.mem_cons_of_mem _ hm))
        (fun j hm => hj j (List.mem_cons_of_mem _ hm))
      have hp := Pooling.slotCost_pool hF 1 le_rfl l ls.sum j js.sum (hl l (by simp))
        (List.sum_nonneg fun l hm => hl l (List.mem_cons_of_mem _ hm)) (hj j (by simp))
        (List.sum_nonneg fun l hm => hj l (List.mem_cons_of_mem _ hm))
      have hβ := hF.switching.le
      have key : ∀ (z : ℚ) (r : ECost), F.slotCost 1 ls.sum js.sum + ((F.switching * max 0 (z - j) : ℚ) : ECost) ≤ r →
          F.slotCost 1 (l + ls.sum) (j + js.sum) + ((F.switching * max 0 (z - x) : ℚ) : ECost) ≤
            F.slotCost 1 l j + ((1 * (F.switching * max 0 (j - x)) : ℚ) : ECost) + r := by
        intro z r hr
        have hm : ((F.switching * max 0 (z - x) : ℚ) : ECost) ≤
            ((1 * (F.switching * max 0 (j - x)) : ℚ) : ECost) + ((F.switching * max 0 (z - j) : ℚ) : ECost) := by
          rw [← WithTop.coe_add]
          refine WithTop.coe_le_coe.2 ?_
          rw [one_mul, ← mul_add]
          refine mul_le_mul_of_nonneg_left (max_le (add_nonneg (le_max_left _ _) (le_max_left _ _)) ?_) hβ
          linarith [le_max_right 0 (j - x), le_max_right 0 (z - j)]
        refine (add_le_add hp hm).trans ((le_of_eq ?_).trans (add_le_add_right hr _))
        rw [add_add_add_comm]
      simp only [Spec.totalCost, List.sum_cons, g0]
      have hz : ∀ z ∈ j :: js, F.slotCost 1 (l + ls.sum) (j + js.sum) + ((F.switching * max 0 (z - x) : ℚ) : ECost) ≤
          F.slotCost 1 l j + ((1 * (F.switching * max 0 (j - x)) : ℚ) : ECost) +
            Spec.totalCost h (fun y x : ℚ => F.switching * max 0 (x - y)) 1 (t + 1) j js := by
        intro z hz
        rcases List.mem_cons.1 hz with rfl | hz
        · refine key z _ ?_
          simpa using i1
        · exact key z _ (i2 z hz)
      refine ⟨le_trans ?_ (hz j (by simp)), hz⟩
      refine le_add_of_nonneg_right ?_
      exact WithTop.coe_le_coe.2 (mul_nonneg hβ (le_max_left _ _))

theorem above_mean : ∀ js : List ℚ, js ≠ [] → ∃ z ∈ js, js.sum ≤ js.length * z := by
  intro js
  induction js with
  | nil => intro h; exact absurd rfl h
  | cons j js ih =>
    intro _
    by_cases hn : js = []
    · subst hn; exact ⟨j, by simp, by simp⟩
    · obtain ⟨z, hz, hs⟩ := ih hn
      rcases le_total z j with h | h
      · refine ⟨j, by simp, ?_⟩
        have : (js.length : ℚ) * z ≤ js.length * j := mul_le_mul_of_nonneg_left h (Nat.cast_nonneg _)
        simp only [List.sum_cons, List.length_cons]
        push_cast
        linarith
      · refine ⟨z, by simp [hz], ?_⟩
        simp only [List.sum_cons, List.length_cons]
        push_cast
        linarith

theorem total_steady {h : Int → ℚ → ECost} {β q j : ℚ} : ∀ (n : Nat) (t : Int), (∀ i < n, h (t + i) j = (q : ECost)) →
    Spec.totalCost h (fun y x : ℚ => β * max 0 (x - y)) 1 t j (List.replicate n j) = ((n * q : ℚ) : ECost) := by
  intro n
  induction n with
  | zero => intro t _; simp [Spec.totalCost]
  | succ n ih =>
    intro t hh
    have h0 := hh 0 (by omega)
    simp only [Nat.cast_zero, add_zero] at h0
    simp only [List.replicate_succ, Spec.totalCost, h0]
    rw [ih (t + 1) (fun i hi => by
      have := hh (i + 1) (by omega)
      push_cast at this
      rwa [show t + 1 + (i : Int) = t + (i + 1) by ring]), ← WithTop.coe_add, ← WithTop.coe_add]
    refine congrArg _ ?_
    rw [sub_self, max_self]
    push_cast
    ring

end Evened

open Evened

/-- **C148** (plans). Let prices and delays be constant. To every fractional plan for some loads there is a plan with the same number of
servers in all slots, for the loads distributed evenly over the slots, which costs no more. -/
theorem C148_plans (F : Spec.Farm) (hF : F.Valid) (hc : F.Constant) (loads : List ℚ) (hl : ∀ l ∈ loads, 0 ≤ l) (plan : List ℚ)
    (hp : F.IsFractionalPlan loads plan) :
    ∃ j : ℚ, F.IsFractionalPlan (Spec.evened loads) (List.replicate loads.length j) ∧
      F.fractionalCost (Spec.evened loads) (List.replicate loads.length j) ≤ F.fractionalCost loads plan := by
  obtain ⟨p1, p2⟩ := hp
  by_cases hn : loads = []
  · subst hn
    have : plan = [] := List.length_eq_zero_iff.1 p1
    subst this
    exact ⟨0, ⟨rfl, by simp⟩, le_rfl⟩
  have hpos : 0 < loads.length := List.length_pos_of_ne_nil hn
  have hnq : (0 : ℚ) < loads.length := by exact_mod_cast hpos
  obtain ⟨z, hz, hzs⟩ := above_mean plan (List.ne_nil_of_length_pos (by omega))
  rw [p1] at hzs
  have hsum : 0 ≤ plan.sum := List.sum_nonneg fun j hj => (p2 j hj).1
  have hj0 : 0 ≤ plan.sum / loads.length := div_nonneg hsum hnq.le
  have hjz : plan.sum / loads.length ≤ z := (div_le_iff₀ hnq).2 (by linarith)
  refine ⟨plan.sum / loads.length, ⟨by simp [Spec.evened], fun j hj => ?_⟩, ?_⟩
  · rw [(List.mem_replicate.1 hj).2]
    exact ⟨hj0, hjz.trans (p2 z hz).2⟩
  obtain ⟨n, hn'⟩ : ∃ n, loads.length = n + 1 := ⟨loads.length - 1, by omega⟩
  have hT := (total_pooled hF (h := fun t (j : ℚ) => F.slotCost t (loads.getD (t - 1).toNat 0) j) plan loads 1 0 p1
    (fun i hi => by
      rw [slot_one hc _ (by omega), show ((1 : Int) + i - 1).toNat = i by omega]) hl (fun j hj => (p2 j hj).1)).2 z hz
  refine le_trans ?_ hT
  by_cases ht : F.slotCost 1 loads.sum plan.sum = ⊤
  · rw [ht, WithTop.top_add]; exact le_top
  obtain ⟨q, hq⟩ := WithTop.ne_top_iff_exists.1 ht
  have hs := Pooling.slotCost_scale 1 loads.sum plan.sum (1 / loads.length) (by positivity) q hq.symm
  rw [one_div_mul_eq_div, one_div_mul_eq_div, one_div_mul_eq_div] at hs
  have hslot : ∀ i < loads.length, F.slotCost (1 + (i : Int)) ((Spec.evened loads).getD ((1 : Int) + i - 1).toNat 0) (plan.sum / loads.length) =
      ((q / loads.length : ℚ) : ECost) := by
    intro i hi
    rw [slot_one hc _ (by omega), show ((1 : Int) + i - 1).toNat = i by omega, Spec.evened, List.getD_replicate _ hi, hs]
  unfold Spec.Farm.fractionalCost
  rw [← hq]
  generalize hJ : plan.sum / loads.length = J at *
  rw [hn', List.replicate_succ]
  simp only [Spec.totalCost]
  have h0 := hslot 0 hpos
  simp only [Nat.cast_zero, add_zero] at h0
  rw [h0, total_steady (h := fun t (j : ℚ) => F.slotCost t ((Spec.evened loads).getD (t - 1).toNat 0) j) (q := q / loads.length) n (1 + 1) (fun i hi => by
    have := hslot (i + 1) (by omega)
    push_cast at this
    rwa [show (1 : Int) + 1 + i = 1 + (i + 1) by ring]), ← WithTop.coe_add, ← WithTop.coe_add, ← WithTop.coe_add]
  refine WithTop.coe_le_coe.2 ?_
  have e : q / loads.length + n * (q / loads.length) = q := by
    have : (loads.length : ℚ) = n + 1 := by exact_mod_cast hn'
    field_simp
    rw [this]
    ring
  have hm : F.switching * max 0 (J - 0) ≤ F.switching * max 0 (z - 0) :=
    mul_le_mul_of_nonneg_left (max_le_max le_rfl (by linarith)) hF.switching.le
  linarith

/-- **C148**. Let prices and delays be constant. The cost computed by backward-recurrent capacity provisioning for loads distributed evenly
over the slots is at most the cost computed for the loads, given an exact optimiser and loads with cheapest plans. -/
theorem C148_backward (S : Num.Solver) (hS : Spec.SolvesEmpty S) (opt : Lcp.Minimizer) (hopt : Spec.ExactMinimizer opt) (m : DataCenterModel)
    (F : Spec.Farm) (h : Spec.IsFarm m F) (hF : F.Valid) (hco : F.Constant) (loads : List ℚ) (hl : ∀ l ∈ loads, F.Carries l)
    (hc : ∀ k, F.HasCheapest (loads.take k)) (hce : ∀ k, F.HasCheapest ((Spec.evened loads).take k)) :
    ∃ xs ys c d, solveBackward opt (m.toSSCO S (loads.map fun l => [l])) ⟨false, 1, none⟩ = .ok (xs, c) ∧
      solveBackward opt (m.toSSCO S ((Spec.evened loads).map fun l => [l])) ⟨false, 1, none⟩ = .ok (ys, d) ∧
      d.cost ≤ c.cost ∧ c.cost ≠ ⊤ := by
  have hle : ∀ l ∈ Spec.evened loads, F.Carries l := by
    intro l hm
    obtain ⟨hn, rfl⟩ := List.mem_replicate.1 hm
    have hnq : (0 : ℚ) < loads.length := by exact_mod_cast Nat.pos_of_ne_zero hn
    obtain ⟨z, hz, hzs⟩ := above_mean loads (fun e => hn (by simp [e]))
    obtain ⟨u0, u1, u2⟩ := hl z hz
    have hm0 : 0 ≤ loads.sum / loads.length := div_nonneg (List.sum_nonneg fun l hm => (hl l hm).1) hnq.le
    have hmz : loads.sum / loads.length ≤ z := (div_le_iff₀ hnq).2 (by linarith)
    have hu : F.use (loads.sum / loads.length) F.servers ≤ F.use z F.servers := by
      unfold Spec.Farm.use
      exact div_le_div_of_nonneg_right (mul_le_mul_of_nonneg_left hmz hF.time)
        (mul_pos (by exact_mod_cast hF.servers) hF.slot).le
    exact ⟨hm0, hu.trans_lt u1, hu.trans u2⟩
  obtain ⟨plan, o1, a1, a2, a3, _⟩ := C95_backward S m F h hF loads hl hS opt hopt hc
  obtain ⟨best, o2, b1, _, _, b4⟩ := C95_backward S m F h hF _ hle hS opt hopt hce
  obtain ⟨j, d1, d2⟩ := C148_plans F hF hco loads (fun l hm => (hl l hm).1) plan a2
  exact ⟨_, _, _, _, a1, b1, (b4 _ d1).trans d2, a3⟩

/-! ## Examples -/

/-- `Ex.patientFarm` with the same price at all times. -/
def Ex.evenFarm : Spec.Farm := { Ex.patientFarm with price := fun _ => 1 }

def Ex.evenModel : DataCenterModel := { Ex.patientModel with energyModel := .linear fun _ => some fun _ => 1 }

theorem Ex.even_is : Spec.IsFarm Ex.evenModel Ex.evenFarm :=
  ⟨_, _, _, _, rfl, rfl, rfl, rfl, rfl, rfl, rfl, fun _ _ => rfl, fun u => by
    simp only [Ex.evenModel, Ex.patientModel, Ex.farmModel, ConsumptionModel.consumption, lookup, bind, Except.bind, Ex.evenFarm,
      Ex.patientFarm, Ex.farm]
    congr 1
    ring, fun t p _ => rfl, rfl, ⟨_, rfl, by norm_num [SwitchingCost.switchingCost, Ex.evenFarm, Ex.patientFarm, Ex.farm]⟩, rfl⟩

theorem Ex.even_valid : Ex.evenFarm.Valid := { Ex.patient_valid with price := fun _ _ => one_pos }

theorem Ex.even_slot (t : Int) (c i : ℚ) (hc : 0 < c) :
    Ex.evenFarm.slotCost t c i = if i < 5 / 9 * c then ⊤ else ((c / 2 + i : ℚ) : ECost) := by
  have huse : Ex.evenFarm.use c i = c / 2 / i := by
    simp only [Spec.Farm.use, Ex.evenFarm, Ex.patientFarm, Ex.farm, mul_one]
    ring
  have hm : Ex.evenFarm.maxUse = 9 / 10 := rfl
  have ep : ∀ u : ℚ, Ex.evenFarm.power u = u + 1 := fun _ => rfl
  have e1 : Ex.evenFarm.price t = 1 := rfl
  have e2 : Ex.evenFarm.gamma = 0 := rfl
  unfold Spec.Farm.slotCost
  rw [huse, hm, ep, e1, e2]
  by_cases hi : i < 5 / 9 * c
  · rw [if_pos hi]
    split_ifs with h1 h2 h3
    · exact absurd h2 hc.ne'
    · rfl
    · have := (div_le_iff₀ (not_le.1 h1)).1 h3.2
      exact absurd hi (by linarith)
    · rfl
  · have hi0 : 0 < i := by linarith [not_lt.1 hi]
    have hu : c / 2 / i ≤ 9 / 10 := (div_le_iff₀ hi0).2 (by linarith [not_lt.1 hi])
    rw [if_neg hi, if_neg (not_le.2 hi0), if_pos ⟨by linarith, hu⟩]
    refine congrArg _ ?_
    field_simp
    ring

/-- If the loads rise, the least number of servers in every slot is a cheapest plan. -/
theorem Ex.even_rising (h : Int → ℚ → ECost) (β : ℚ) (hβ : 0 ≤ β) : ∀ (ls js : List ℚ) (t : Int) (x y : ℚ), js.length = ls.length →
    (∀ l ∈ ls, 0 < l) → List.IsChain (· ≤ ·) (x :: ls.map (5 / 9 * ·)) → x ≤ y →
    (∀ i < ls.length, ∀ j, h (t + i) j = if j < 5 / 9 * ls.getD i 0 then ⊤ else ((ls.getD i 0 / 2 + j : ℚ) : ECost)) →
    Spec.totalCost h (fun y x : ℚ => β * max 0 (x - y)) 1 t x (ls.map (5 / 9 * ·)) ≤
      Spec.totalCost h (fun y x : ℚ => β * max 0 (x - y)) 1 t y js + ((β * (y - x) : ℚ) : ECost) ∧
    Spec.totalCost h (fun y x : ℚ => β * max 0 (y - x)) 1 t x (ls.map (5 / 9 * ·)) ≤
      Spec.totalCost h (fun y x : ℚ => β * max 0 (y - x)) 1 t y js := by
  intro ls
  induction ls with
  | nil =>
    intro js t x y hlen _ _ hxy _
    have : js = [] := List.length_eq_zero_iff.1 hlen
    subst this
    simp only [List.map_nil, Spec.totalCost, zero_add]
    exact ⟨WithTop.coe_le_coe.2 (mul_nonneg hβ (by linarith)), le_rfl⟩
  | cons l ls ih =>
    intro js t x y hlen hl hs hxy hh
    cases js with
    | nil => simp at hlen
    | cons z js =>
      simp only [List.map_cons] at hs ⊢
      obtain ⟨s1, s2⟩ := List.isChain_cons_cons.1 hs
      have h0 := hh 0 (by simp)
      simp only [Nat.cast_zero, add_zero, List.getD_cons_zero] at h0
      simp only [Spec.totalCost, h0]
      by_cases hz : z < 5 / 9 * l
      · simp [hz]
      have hz' := not_lt.1 hz
      obtain ⟨i1, i2⟩ := ih js (t + 1) (5 / 9 * l) z (by simpa using hlen) (fun l hm => hl l (List.mem_cons_of_mem _ hm)) s2 hz'
        (fun i hi j => by
          have := hh (i + 1) (by simpa using hi) j
          simp only [List.getD_cons_succ, Nat.cast_add, Nat.cast_one] at this
          rwa [show t + 1 + (i : Int) = t + (i + 1) by ring])
      rw [if_neg hz, if_neg (lt_irrefl _)]
      constructor
      · refine (add_le_add_right i1 _).trans ?_
        rw [add_assoc (_ + _) _ ((β * (y - x) : ℚ) : ECost), add_comm _ ((β * (y - x) : ℚ) : ECost),
          add_comm _ ((β * (z - 5 / 9 * l) : ℚ) : ECost), ← add_assoc, ← add_assoc]
        refine add_le_add_left ?_ _
        simp only [← WithTop.coe_add]
        refine WithTop.coe_le_coe.2 ?_
        have hm : max 0 (5 / 9 * l - x) = 5 / 9 * l - x := max_eq_right (by linarith)
        have hb := mul_le_mul_of_nonneg_left (le_max_right 0 (z - y)) hβ
        rw [hm, one_mul, one_mul]
        nlinarith
      · refine add_le_add ?_ i2
        rw [← WithTop.coe_add, ← WithTop.coe_add]
        refine WithTop.coe_le_coe.2 ?_
        have hm : max 0 (x - 5 / 9 * l) = 0 := max_eq_left (by linarith)
        have hb : 0 ≤ β * max 0 (y - z) := mul_nonneg hβ (le_max_left _ _)
        rw [hm, one_mul, one_mul]
        linarith

theorem Ex.even_cheapest (ls : List ℚ) (hl : ∀ l ∈ ls, 0 < l ∧ l ≤ 36 / 5) (hs : List.IsChain (· ≤ ·) (0 :: ls.map (5 / 9 * ·))) :
    Ex.evenFarm.HasCheapest ls := by
  have hp : Ex.evenFarm.IsFractionalPlan ls (ls.map (5 / 9 * ·)) := ⟨by simp, fun j hj => by
    obtain ⟨l, hm, rfl⟩ := List.mem_map.1 hj
    have := hl l hm
    have e : Ex.evenFarm.servers = 4 := rfl
    rw [e]
    push_cast
    exact ⟨by linarith, by linarith⟩⟩
  have key : ∀ other, Ex.evenFarm.IsFractionalPlan ls other → _ := fun other ho =>
    Ex.even_rising (fun t (j : ℚ) => Ex.evenFarm.slotCost t (ls.getD (t - 1).toNat 0) j) Ex.evenFarm.switching Ex.even_valid.switching.le
      ls other 1 0 0 ho.1 (fun l hm => (hl l hm).1) hs le_rfl (fun i hi j => by
        rw [show ((1 : Int) + i - 1).toNat = i by omega]
        refine Ex.even_slot _ _ _ ?_
        rw [List.getD_eq_getElem _ _ hi]
        exact (hl _ (List.getElem_mem _)).1)
  refine ⟨⟨_, hp, fun other ho => ?_⟩, ⟨_, hp, fun other ho => (key other ho).2⟩⟩
  have := (key other ho).1
  rw [sub_self, mul_zero, WithTop.coe_zero, add_zero] at this
  exact this

/-- Whole servers differ: a job in the first of two slots costs 9/2, half a job in each slot at least 11/2. -/
theorem C148_integral_counterexample : Ex.evenFarm.Valid ∧ Ex.evenFarm.Constant ∧ Spec.evened [1, 0] = [1 / 2, 1 / 2] ∧
    Ex.evenFarm.IsPlan [1, 0] [1, 0] ∧ Ex.evenFarm.planCost [1, 0] [1, 0] = ((9 / 2 : ℚ) : ECost) ∧
    ∀ plan, Ex.evenFarm.IsPlan [1 / 2, 1 / 2] plan → ((11 / 2 : ℚ) : ECost) ≤ Ex.evenFarm.planCost [1 / 2, 1 / 2] plan := by
  have hsw : Ex.evenFarm.switching = 3 := by norm_num [Ex.evenFarm, Ex.patientFarm, Ex.farm]
  refine ⟨Ex.even_valid, fun _ _ => ⟨rfl, rfl⟩, by norm_num [Spec.evened, List.replicate], ⟨rfl, by simp [Ex.evenFarm, Ex.patientFarm, Ex.farm]⟩, ?_, ?_⟩
  · have h1 := Ex.even_slot 1 1 1 one_pos
    have h2 : Ex.evenFarm.slotCost (1 + 1) 0 0 = 0 := by simp [Spec.Farm.slotCost]
    norm_num at h1
    simp only [Spec.Farm.planCost, Spec.totalCost, hsw]
    norm_num at h2 ⊢
    rw [h1, h2]
    simp only [add_zero]
    exact (WithTop.coe_add (3 / 2 : ℚ) 3).symm.trans (congrArg _ (by norm_num))
  · rintro plan ⟨p1, p2⟩
    match plan, p1 with
    | [a, b], _ =>
      simp only [Spec.Farm.planCost, Spec.totalCost, hsw]
      have e1 : (([1 / 2, 1 / 2] : List ℚ).getD ((1 : Int) - 1).toNat 0) = 1 / 2 := rfl
      have e2 : (([1 / 2, 1 / 2] : List ℚ).getD ((1 : Int) + 1 - 1).toNat 0) = 1 / 2 := rfl
      rw [e1, e2, Ex.even_slot _ _ _ (by norm_num), Ex.even_slot _ _ _ (by norm_num)]
      split_ifs with h1 h2 h2
      · simp
      · simp
      · simp
      · have ha : 1 ≤ a := by
          by_contra hlt
          have : (a : ℚ) ≤ 0 := by exact_mod_cast (by omega : a ≤ 0)
          linarith
        have hb : 1 ≤ b := by
          by_contra hlt
          have : (b : ℚ) ≤ 0 := by exact_mod_cast (by omega : b ≤ 0)
          linarith
        have ha' : (1 : ℚ) ≤ a := by exact_mod_cast ha
        have hb' : (1 : ℚ) ≤ b := by exact_mod_cast hb
        rw [add_zero]
        simp only [← WithTop.coe_add]
        refine WithTop.coe_le_coe.2 ?_
        have m1 := le_max_right (0 : ℚ) (a - (0 : ℤ))
        have m2 := le_max_left (0 : ℚ) ((b : ℚ) - a)
        push_cast at *
        linarith

/-- Non-vacuity of `C148_backward` and `C148_plans`: the loads are doubled from slot to slot. -/
example (S : Num.Solver) (hS : Spec.SolvesEmpty S) (opt : Lcp.Minimizer) (hopt : Spec.ExactMinimizer opt) :=
  C148_backward S hS opt hopt Ex.evenModel Ex.evenFarm Ex.even_is Ex.even_valid (fun _ _ => ⟨rfl, rfl⟩) [1, 2, 4]
    (by
      intro l hl
      simp only [List.mem_cons, List.not_mem_nil, or_false] at hl
      rcases hl with rfl | rfl | rfl <;> norm_num [Spec.Farm.Carries, Spec.Farm.use, Ex.evenFarm, Ex.patientFarm, Ex.farm])
    (fun k => by
      rcases k with _ | _ | _ | k <;> refine Ex.even_cheapest _ ?_ ?_ <;> norm_num)
    (fun k => by
      have e : Spec.evened [1, 2, 4] = [7 / 3, 7 / 3, 7 / 3] := by norm_num [Spec.evened, List.replicate]
      rw [e]
      rcases k with _ | _ | _ | k <;> refine Ex.even_cheapest _ ?_ ?_ <;> norm_num)

end Soco
