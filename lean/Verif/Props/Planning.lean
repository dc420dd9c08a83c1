import Verif.Spec.Planning
import Verif.Props.ApproxRatio
import Verif.Props.IntoSCO
import Verif.Props.Service
import Verif.Props.Solve
import Verif.Props.Static

/-!
# C90: planning for a data center with a single type of servers and jobs
-/

namespace Soco
open Offline SingleType

namespace Planning

variable {S : Num.Solver} {m : DataCenterModel} {F : Spec.Farm}

/-- What is known of the generated problem. -/
theorem generated (hS : Spec.SolvesEmpty S) (h : Spec.IsFarm m F) (hF : F.Valid) (loads : List ℚ)
    (hl : ∀ l ∈ loads, F.Carries l) :
    ∃ p : SSCO ℤ DCSuccess DCFailure, m.toSSCO S (loads.map fun l => [l]) = .ok p ∧ p.verify = .ok () ∧
      Spec.Inst p F.servers F.switching (fun t j => F.slotCost t (loads.getD (t - 1).toNat 0) j) loads.length ∧
      Spec.Costs F.servers F.switching (fun t j => F.slotCost t (loads.getD (t - 1).toNat 0) j) loads.length ∧
      (∀ plan, F.IsPlan loads plan → ∃ out, p.toProb.objective (plan.map fun j => [j]) = .ok ⟨F.planCost loads plan, out⟩) := by
  obtain ⟨p, hp, I⟩ := C87_problem S hS m F h hF loads fun l hm => (hl l hm).1
  have K := C87_convex F hF loads hl
  refine ⟨p, hp, (C10_ssco_verify_exact p).1 ⟨?_, ?_, ?_, ?_, ?_, ?_⟩, I, K, ?_⟩
  · rw [I.d]; norm_num
  · rw [I.tEnd]; omega
  · rw [I.d, I.bounds]; rfl
  · rw [I.d, I.switching]; rfl
  · rw [I.bounds]; simpa using K.hm
  · rw [I.switching]; simpa using K.hβ
  · rintro plan ⟨h1, h2⟩
    obtain ⟨out, ho⟩ := Lcp.objective_last I plan h1 h2
    have emv : Uni.mv1 F.switching false = fun y x : ℤ => F.switching * max 0 ((x : ℚ) - y) := by
      funext y x
      simp [Uni.mv1]
    rw [emv] at ho
    exact ⟨out, ho⟩

/-- Configurations of the generated problem are numbers of servers. -/
theorem schedule_plan {loads : List ℚ} {xs : Schedule ℤ} (h1 : xs.length = loads.length)
    (h2 : ∀ x ∈ xs, Spec.InBox [F.servers] x) : ∃ plan, xs = plan.map (fun j => [j]) ∧ F.IsPlan loads plan := by
  obtain ⟨js, rfl, hj⟩ := Service.box_list h2
  exact ⟨js, rfl, by simpa using h1, hj⟩

theorem plan_schedule {loads : List ℚ} {plan : List ℤ} (h : F.IsPlan loads plan) :
    ∀ y ∈ plan.map (fun j => [j]), Spec.InBox [F.servers] y := by
  intro y hy
  obtain ⟨k, hk, rfl⟩ := List.mem_map.1 hy
  exact .cons (h.2 k hk) .nil

/-- Using all servers all the time has a finite cost. -/
theorem full_finite {n : Nat} {g : Int → ℤ → ECost} {bound : ℤ} (mv : ℤ → ℤ → ℚ)
    (hg : ∀ t : Int, 1 ≤ t → t ≤ n → g t bound ≠ ⊤) (y : ℤ) :
    Spec.totalCost g mv 1 1 y (List.replicate n bound) ≠ ⊤ := by
  have : ∀ (k : Nat) (t : Int) (y : ℤ), 1 ≤ t → t + k ≤ n + 1 →
      Spec.totalCost g mv 1 t y (List.replicate k bound) ≠ ⊤ := by
    intro k
    induction k with
    | zero => intro t y _ _; simp [Spec.totalCost]
    | succ k ih =>
      intro t y h4 h5
      simp only [List.replicate_succ, Spec.totalCost]
      rw [WithTop.add_ne_top, WithTop.add_ne_top]
      exact ⟨⟨hg t h4 (by push_cast at h5; omega), WithTop.coe_ne_top⟩, ih _ _ (by omega) (by push_cast at h5; omega)⟩
  exact this n 1 y le_rfl (by omega)

/-- What a fixed number of servers costs is convex. -/
theorem static_convex {loads : List ℚ} (hF : F.Valid)
    (K : Spec.Costs F.servers F.switching (fun t j => F.slotCost t (loads.getD (t - 1).toNat 0) j) loads.length) :
    Spec.ConvexBetween 0 F.servers fun j => F.planCost loads (List.replicate loads.length j) := by
  have aux : ∀ (n : Nat) (t : Int), 1 ≤ t → t + n ≤ loads.length + 1 → Spec.ConvexBetween 0 F.servers fun j =>
      Spec.totalCost (fun t (j : ℤ) => F.slotCost t (loads.getD (t - 1).toNat 0) j)
        (fun y x : ℤ => F.switching * max 0 ((x : ℚ) - y)) 1 t j (List.replicate n j) := by
    intro n
    induction n with
    | zero => intro t _ _; exact Static.convex_const 0
    | succ n ih =>
      intro t h1 h2
      simp only [List.replicate_succ, Spec.totalCost, sub_self, max_self, mul_zero]
      exact Static.convex_add (Static.convex_add (K.conv t h1 (by push_cast at h2; omega)) (Static.convex_const _))
        (ih (t + 1) (by omega) (by push_cast at h2; omega))
  unfold Spec.Farm.planCost
  cases hn : loads.length with
  | zero => exact Static.convex_const 0
  | succ n =>
    simp only [List.replicate_succ, Spec.totalCost, one_mul]
    refine Static.convex_add (Static.convex_add (K.conv 1 le_rfl (by omega)) ?_) (aux n 2 (by omega) (by omega))
    intro x y z hx hxy hyz hz a c ha hc
    have hxq : (0 : ℚ) ≤ x := by exact_mod_cast hx
    have hyq : (0 : ℚ) ≤ y := by exact_mod_cast hx.trans hxy.le
    have hzq : (0 : ℚ) ≤ z := by exact_mod_cast (hx.trans hxy.le).trans hyz.le
    simp only [Int.cast_zero, sub_zero] at ha hc ⊢
    rw [max_eq_right hxq] at ha
    rw [max_eq_right hzq] at hc
    rw [max_eq_right hyq]
    have ha' : F.switching * x = a := by exact_mod_cast ha
    have hc' : F.switching * z = c := by exact_mod_cast hc
    refine ⟨_, rfl, ?_⟩
    rw [← ha', ← hc']
    apply le_of_eq
    ring

/-- More servers, but at most `c` times as many, cost at most `c` times as much. -/
theorem slot_growth (hF : F.Valid) (hr : F.Rising) (t : Int) (ht : 1 ≤ t) (l : ℚ) (hl : 0 ≤ l) (c : ℚ) (i j : ℤ)
    (hi : 0 ≤ i) (hij : i ≤ j) (hjc : (j : ℚ) ≤ c * i) (q : ℚ) (hq : F.slotCost t l i = (q : ECost)) :
    F.slotCost t l j ≤ ((c * q : ℚ) : ECost) := by
  rcases hi.eq_or_lt with rfl | hi
  · have : j = 0 := by
      have : (j : ℚ) ≤ 0 := by simpa using hjc
      have : j ≤ 0 := by exact_mod_cast this
      omega
    subst this
    unfold Spec.Farm.slotCost at hq ⊢
    rw [Int.cast_zero, if_pos le_rfl] at hq ⊢
    split_ifs at hq ⊢ with h
    · have : q = 0 := by exact_mod_cast hq.symm
      subst this
      simp
    · exact absurd hq.symm WithTop.coe_ne_top
  · have hj : 0 < j := by omega
    have hiq : (0 : ℚ) < i := by exact_mod_cast hi
    have hjq : (0 : ℚ) < j := by exact_mod_cast hj
    have hijq : (i : ℚ) ≤ j := by exact_mod_cast hij
    have hc : 1 ≤ c := by
      by_contra hc
      have : c * i < 1 * i := mul_lt_mul_of_pos_right (not_le.1 hc) hiq
      linarith
    have hu0 : 0 ≤ F.use l j := div_nonneg (mul_nonneg hF.time hl) (mul_nonneg hjq.le hF.slot.le)
    have hu : F.use l j ≤ F.use l i :=
      div_le_div_of_nonneg_left (mul_nonneg hF.time hl) (mul_pos hiq hF.slot)
        (mul_le_mul_of_nonneg_right hijq hF.slot.le)
    unfold Spec.Farm.slotCost at hq ⊢
    rw [if_neg (not_le.2 hiq)] at hq
    rw [if_neg (not_le.2 hjq)]
    split_ifs at hq with h
    · rw [if_pos ⟨hu.trans_lt h.1, hu.trans h.2⟩]
      have hq' : F.price t * (i * F.power (F.use l i)) +
          F.gamma * max 0 (F.time / (1 - F.use l i) + F.route t + F.time - F.delay) * l = q := by exact_mod_cast hq
      have h1 : F.price t * (j * F.power (F.use l j)) ≤ c * (F.price t * (i * F.power (F.use l i))) := by
        have a1 : (j : ℚ) * F.power (F.use l j) ≤ (c * i) * F.power (F.use l i) :=
          mul_le_mul hjc (hr _ _ hu0 hu) (hF.power _ hu0) (hjq.le.trans hjc)
        have := mul_le_mul_of_nonneg_left a1 (hF.price t ht).le
        linarith [this]
      have h2 : F.gamma * max 0 (F.time / (1 - F.use l j) + F.route t + F.time - F.delay) * l ≤
          F.gamma * max 0 (F.time / (1 - F.use l i) + F.route t + F.time - F.delay) * l := by
        refine mul_le_mul_of_nonneg_right (mul_le_mul_of_nonneg_left (max_le_max le_rfl ?_) hF.gamma) hl
        have : F.time / (1 - F.use l j) ≤ F.time / (1 - F.use l i) :=
          div_le_div_of_nonneg_left hF.time (by linarith [h.1]) (by linarith)
        linarith
      have h3 : 0 ≤ F.gamma * max 0 (F.time / (1 - F.use l i) + F.route t + F.time - F.delay) * l :=
        mul_nonneg (mul_nonneg hF.gamma (le_max_left _ _)) hl
      have h4 := mul_le_mul_of_nonneg_right hc h3
      refine WithTop.coe_le_coe.2 ?_
      rw [← hq', mul_add]
      linarith
    · exact absurd hq.symm WithTop.coe_ne_top

end Planning

open Planning

section
variable (S : Num.Solver) (hS : Spec.SolvesEmpty S) (m : DataCenterModel) (F : Spec.Farm) (h : Spec.IsFarm m F) (hF : F.Valid)
  (loads : List ℚ) (hl : ∀ l ∈ loads, F.Carries l) (hne : loads ≠ [])
include hS h hF hl hne

/-- **C90** Graph search, started from the model of a data center with one type of servers and jobs, returns a cheapest plan
for the loads, together with what the plan costs. -/
theorem C90_optimal (o : OfflineOptions) (ho : o.l = none) (hα : o.alpha = 1) :
    ∃ plan out, solveOptimal (m.toSSCO S (loads.map fun l => [l])) none o =
        .ok (plan.map fun j => [j], ⟨F.planCost loads plan, out⟩) ∧
      F.IsPlan loads plan ∧ F.planCost loads plan ≠ ⊤ ∧
      ∀ other, F.IsPlan loads other → F.planCost loads plan ≤ F.planCost loads other := by
  obtain ⟨p, hp, hv, I, K, hobj⟩ := generated hS h hF loads hl
  have hT : 1 ≤ p.tEnd := by
    have := List.length_pos_of_ne_nil hne
    rw [I.tEnd]; omega
  obtain ⟨r, r1, r2, r3, r4, ⟨out, r5⟩, r6⟩ := C19_graph_search_optimal p hv hT o ho (by rw [hα]; norm_num)
    (fun t x => F.slotCost t (loads.getD (t - 1).toNat 0) (x.getD 0 0))
    (by
      intro t h1 h2 x hx
      rw [I.bounds] at hx
      cases hx with
      | cons hx hn =>
        cases hn
        exact I.hit t h1 (by rw [← I.tEnd]; exact h2) _ hx.1 hx.2)
    (by
      intro t h1 h2
      rw [I.bounds]
      exact K.fin t h1 (by rw [← I.tEnd]; exact h2))
  rw [I.tEnd, I.bounds] at *
  obtain ⟨plan, e, hplan⟩ := schedule_plan (F := F) (loads := loads) (by exact_mod_cast r2) r3
  obtain ⟨out', ho'⟩ := hobj plan hplan
  have r5' : p.toProb.objective (plan.map fun j => [j]) = .ok ⟨r.path.cost, out⟩ := by
    rw [hα, e] at r5
    exact r5
  have hc : r.path.cost = F.planCost loads plan := by
    rw [r5'] at ho'
    injection ho' with ho'
    injection ho'
  refine ⟨plan, out', ?_, hplan, hc ▸ r4, fun other hother => ?_⟩
  · unfold solveOptimal
    rw [C67_solve_ok_iff]
    exact ⟨p, r, hp, hv, r1, e, ho'⟩
  · obtain ⟨c, c1, c2⟩ := r6 _ (by simpa using hother.1) (plan_schedule hother)
    obtain ⟨o2, h2⟩ := hobj other hother
    rw [hα] at c1
    change p.toProb.objective _ = _ at c1
    rw [h2] at c1
    cases c1
    rw [← hc]
    exact c2

/-- **C90** So does the graph search for problems with one dimension. -/
theorem C90_optimal_one_dimension (o : OfflineOptions) (ho : o.l = none) (hα : o.alpha = 1) (hi : o.inverted = false) :
    ∃ plan out, solveUni (m.toSSCO S (loads.map fun l => [l])) 0 o =
        .ok (plan.map fun j => [j], ⟨F.planCost loads plan, out⟩) ∧
      F.IsPlan loads plan ∧ F.planCost loads plan ≠ ⊤ ∧
      ∀ other, F.IsPlan loads other → F.planCost loads plan ≤ F.planCost loads other := by
  obtain ⟨p, hp, hv, I, K, hobj⟩ := generated hS h hF loads hl
  obtain ⟨P, r1, r2, r3, ⟨out, r5⟩, r6⟩ := C17_optimal p hv I.d F.servers I.bounds 0 K.hm.le o ho
    (by rw [hα]; norm_num) (fun t j => F.slotCost t (loads.getD (t - 1).toNat 0) j)
    (by rw [I.tEnd]; exact I.hit) (by rw [I.tEnd]; exact K.fin) (by rw [I.tEnd]; exact K.nonneg)
    (by rw [I.tEnd]; exact K.conv)
  have hdef : p.toProb.defaultConfig = [0] := by
    have : p.toProb.d = 1 := I.d
    unfold Prob.defaultConfig
    rw [this]
    rfl
  have hob : ∀ xs, p.toProb.objectiveWithDefault' xs [0] o.alpha o.inverted p.tEnd = p.toProb.objective xs := by
    intro xs
    rw [hα, hi, ← hdef]
    rfl
  rw [hob] at r5
  rw [I.tEnd] at r2
  rw [I.bounds] at r3
  obtain ⟨plan, e, hplan⟩ := schedule_plan (F := F) (loads := loads) (by exact_mod_cast r2) r3
  obtain ⟨out', ho'⟩ := hobj plan hplan
  rw [e] at r5
  have hc : P.cost = F.planCost loads plan := by
    rw [r5] at ho'
    injection ho' with ho'
    injection ho'
  have hmin : ∀ other, F.IsPlan loads other → F.planCost loads plan ≤ F.planCost loads other := by
    intro other hother
    obtain ⟨c, c1, c2⟩ := r6 (other.map fun j => [j]) (by rw [I.tEnd]; simpa using hother.1)
      (by rw [I.bounds]; exact plan_schedule hother)
    obtain ⟨o2, h2⟩ := hobj other hother
    rw [hob, h2] at c1
    cases c1
    rw [← hc]
    exact c2
  refine ⟨plan, out', ?_, hplan, ?_, hmin⟩
  · unfold solveUni
    rw [C67_solve_ok_iff]
    exact ⟨p, P, hp, hv, r1, e, ho'⟩
  · have hfull : F.IsPlan loads (List.replicate loads.length F.servers) :=
      ⟨by simp, fun j hj => by rw [(List.mem_replicate.1 hj).2]; exact ⟨K.hm.le, le_rfl⟩⟩
    exact ne_top_of_le_ne_top (full_finite _ K.fin 0) (hmin _ hfull)

/-- **C90** If a server which is used more does not consume less energy, the approximation returns a plan whose cost is at
most `2 * γ - 1` times that of every plan. -/
theorem C90_approximation (hr : F.Rising) (γ : ℚ) (hγ : 1 < γ) (o : OfflineOptions) (ho : o.l = none) (hα : o.alpha = 1) :
    ∃ plan out N, (∀ fuel, N ≤ fuel → solveApprox fuel (m.toSSCO S (loads.map fun l => [l])) none γ o =
        some (.ok (plan.map fun j => [j], ⟨F.planCost loads plan, out⟩))) ∧
      F.IsPlan loads plan ∧
      ∀ other, F.IsPlan loads other → ∀ q : ℚ, F.planCost loads other = (q : ECost) →
        F.planCost loads plan ≤ (((2 * γ - 1) * q : ℚ) : ECost) := by
  obtain ⟨p, hp, hv, I, K, hobj⟩ := generated hS h hF loads hl
  have hT : 1 ≤ p.tEnd := by
    have := List.length_pos_of_ne_nil hne
    rw [I.tEnd]; omega
  obtain ⟨r, N, r1, r2, r3, ⟨out, r5⟩, r6⟩ := C64_approximation_ratio p hv hT γ hγ o ho (by rw [hα]; norm_num)
    (fun t x => F.slotCost t (loads.getD (t - 1).toNat 0) (x.getD 0 0))
    (by
      intro t h1 h2 x hx
      rw [I.bounds] at hx
      cases hx with
      | cons hx hn =>
        cases hn
        exact I.hit t h1 (by rw [← I.tEnd]; exact h2) _ hx.1 hx.2)
    (by
      intro t h1 h2
      rw [I.bounds]
      exact K.fin t h1 (by rw [← I.tEnd]; exact h2))
    (by
      intro t h1 h2 x y hx hy hxy q hq
      rw [I.bounds] at hx hy
      cases hx with
      | cons hx hn =>
        cases hn
        cases hy with
        | cons hy hn =>
          cases hn
          cases hxy with
          | cons hxy hn =>
            refine slot_growth hF hr t h1 _ ?_ _ _ _ hx.1 hxy.1 hxy.2 q hq
            have hlt : (t - 1).toNat < loads.length := by rw [I.tEnd] at h2; omega
            rw [List.getD_eq_getElem _ _ hlt]
            exact (hl _ (List.getElem_mem _)).1)
  rw [I.tEnd, I.bounds] at *
  obtain ⟨plan, e, hplan⟩ := schedule_plan (F := F) (loads := loads) (by exact_mod_cast r2) r3
  obtain ⟨out', ho'⟩ := hobj plan hplan
  have r5' : p.toProb.objective (plan.map fun j => [j]) = .ok ⟨r.path.cost, out⟩ := by
    rw [hα, e] at r5
    exact r5
  have hc : r.path.cost = F.planCost loads plan := by
    rw [r5'] at ho'
    injection ho' with ho'
    injection ho'
  refine ⟨plan, out', N, fun fuel hf => ?_, hplan, fun other hother q hq => ?_⟩
  · unfold solveApprox
    rw [hp]
    simp only [Except.bind, hv, Except.map, r1 fuel hf, Option.map_some, Option.some.injEq]
    rw [C67_solve_ok_iff]
    exact ⟨p, r, rfl, hv, rfl, e, ho'⟩
  · obtain ⟨c, c1, c2⟩ := r6 _ (by simpa using hother.1) (plan_schedule hother)
    obtain ⟨o2, h2⟩ := hobj other hother
    rw [hα] at c1
    change p.toProb.objective _ = _ at c1
    rw [h2] at c1
    cases c1
    rw [← hc]
    exact c2 q hq

/-- **C90** The static optimum is a number of servers which, if it is never changed, costs least. -/
theorem C90_static (o : OfflineOptions) (ho : o.l = none ∨ o.l = some 0) (hi : o.inverted = false) :
    ∃ j out, solveStatic (m.toSCO S (loads.map fun l => [l])) o =
        .ok (List.replicate loads.length [j], ⟨F.planCost loads (List.replicate loads.length j), out⟩) ∧
      0 ≤ j ∧ j ≤ F.servers ∧ F.planCost loads (List.replicate loads.length j) ≠ ⊤ ∧
      ∀ i, 0 ≤ i → i ≤ F.servers →
        F.planCost loads (List.replicate loads.length j) ≤ F.planCost loads (List.replicate loads.length i) := by
  obtain ⟨p, hp, hv, I, K, hobj⟩ := generated hS h hF loads hl
  have hlen := List.length_pos_of_ne_nil hne
  have hpl : ∀ j, 0 ≤ j → j ≤ F.servers → F.IsPlan loads (List.replicate loads.length j) := fun j h0 h1 =>
    ⟨by simp, fun k hk => by rw [(List.mem_replicate.1 hk).2]; exact ⟨h0, h1⟩⟩
  have hq : m.toSCO S (loads.map fun l => [l]) = .ok p.intoSCO := by
    unfold DataCenterModel.toSCO
    rw [hp]
    rfl
  have hT : p.intoSCO.tEnd.toNat = loads.length := by
    have : p.intoSCO.tEnd = loads.length := I.tEnd
    rw [this]; simp
  have hob : ∀ j, 0 ≤ j → j ≤ F.servers → ∃ out, p.intoSCO.toProb.objective (List.replicate loads.length [j]) =
      .ok ⟨F.planCost loads (List.replicate loads.length j), out⟩ := by
    intro j h0 h1
    rw [C04_into_sco_preserves_objective p _ (by rw [I.tEnd]; simp) (by rw [I.tEnd]; omega) (by rw [I.d]; norm_num)
      (by intro x hx; rw [(List.mem_replicate.1 hx).2, I.d]; rfl) (by rw [I.switching, I.d]; rfl)]
    have := hobj _ (hpl j h0 h1)
    rwa [List.map_replicate] at this
  have hfull : F.planCost loads (List.replicate loads.length F.servers) ≠ ⊤ := full_finite _ K.fin 0
  obtain ⟨j, s1, s2, s3, s4⟩ := C26_one_dimension_partial p.intoSCO o hi ho 0 F.servers I.d
    (by simp [SSCO.intoSCO, I.bounds]) K.hm.le (fun x => F.planCost loads (List.replicate loads.length (x.getD 0 0)))
    (by rw [hT]; exact hob)
    (static_convex hF K)
    ⟨F.servers, K.hm.le, le_rfl, hfull⟩
  rw [hT] at s1
  obtain ⟨out, ho'⟩ := hob j s2 s3
  refine ⟨j, out, ?_, s2, s3, ?_, s4⟩
  · unfold solveStatic
    rw [C67_solve_ok_iff]
    refine ⟨_, _, hq, (C10_sco_verify_exact p.intoSCO).1 ⟨?_, ?_, ?_⟩, s1, rfl, ho'⟩
    · show 0 < p.d
      rw [I.d]; norm_num
    · show 0 ≤ p.tEnd
      rw [I.tEnd]; omega
    · show ((p.bounds.map _).length : Int) = p.d
      rw [I.bounds, I.d]; rfl
  · exact ne_top_of_le_ne_top hfull (s4 _ K.hm.le le_rfl)

end

/-- **C90** All three models of energy consumption make a server consume no less energy if it is used more. -/
theorem C90_rising (delta : ℚ) (hd : 0 ≤ delta) (st : ServerType) (c : ConsumptionModel)
    (hc : (∃ f q, c = .linear f ∧ f st.key = some q ∧ q.phiMin ≤ q.phiMax) ∨
      (∃ f q, c = .simplifiedLinear f ∧ f st.key = some q ∧ 0 ≤ q) ∨
      ∃ powf f q, c = .nonLinear powf f ∧ f st.key = some q ∧ 0 < q.beta ∧
        ∀ u v, 0 ≤ u → u ≤ v → powf u q.alpha ≤ powf v q.alpha) :
    ∀ u v, 0 ≤ u → u ≤ v → ∃ a b, c.consumption delta st u = .ok a ∧ c.consumption delta st v = .ok b ∧ a ≤ b := by
  intro u v hu huv
  rcases hc with ⟨f, q, rfl, h1, h2⟩ | ⟨f, q, rfl, h1, h2⟩ | ⟨powf, f, q, rfl, h1, h2, h3⟩ <;>
    simp only [ConsumptionModel.consumption, lookup, h1, bind, Except.bind]
  · refine ⟨_, _, rfl, rfl, mul_le_mul_of_nonneg_left ?_ hd⟩
    have := mul_le_mul_of_nonneg_left huv (sub_nonneg.2 h2)
    linarith
  · refine ⟨_, _, rfl, rfl, mul_le_mul_of_nonneg_left ?_ hd⟩
    nlinarith
  · refine ⟨_, _, rfl, rfl, mul_le_mul_of_nonneg_left ?_ hd⟩
    have := div_le_div_of_nonneg_right (h3 u v hu huv) h2.le
    linarith

/-! ## Examples -/

theorem Ex.farm_rising : Ex.farm.Rising := by
  intro u v _ h
  simp only [Ex.farm]
  linarith

example (S : Num.Solver) (hS : Spec.SolvesEmpty S) := C90_optimal S hS Ex.farmModel Ex.farm Ex.farm_is Ex.farm_valid
  [3, 0, 7, 2] Ex.farm_carries (by simp) ⟨false, 1, none⟩ rfl rfl

example (S : Num.Solver) (hS : Spec.SolvesEmpty S) := C90_optimal_one_dimension S hS Ex.farmModel Ex.farm Ex.farm_is
  Ex.farm_valid [3, 0, 7, 2] Ex.farm_carries (by simp) ⟨false, 1, none⟩ rfl rfl rfl

example (S : Num.Solver) (hS : Spec.SolvesEmpty S) := C90_approximation S hS Ex.farmModel Ex.farm Ex.farm_is Ex.farm_valid
  [3, 0, 7, 2] Ex.farm_carries (by simp) Ex.farm_rising 2 (by norm_num) ⟨false, 1, none⟩ rfl rfl

example (S : Num.Solver) (hS : Spec.SolvesEmpty S) := C90_static S hS Ex.farmModel Ex.farm Ex.farm_is Ex.farm_valid
  [3, 0, 7, 2] Ex.farm_carries (by simp) ⟨false, 1, none⟩ (Or.inl rfl) rfl

/-- A plan which follows the loads and its cost. -/
example : Ex.farm.IsPlan [3, 0, 7, 2] [2, 0, 4, 2] ∧ Ex.farm.planCost [3, 0, 7, 2] [2, 0, 4, 2] ≠ ⊤ := by
  constructor
  · norm_num [Spec.Farm.IsPlan, Ex.farm]
  · norm_num [Spec.Farm.planCost, Spec.totalCost, Spec.Farm.slotCost, Spec.Farm.use, Ex.farm, show Int.toNat 2 = 2 from rfl,
      show Int.toNat 3 = 3 from rfl]

end Soco
