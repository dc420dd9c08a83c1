import Verif.Props.Planning
import Verif.Props.LcpFrac
import Verif.Props.OfflineFrac

/-!
# C95: fractional plans for a data center with a single type of servers and jobs
-/

namespace Soco
open Offline SingleType Work Lcp

namespace Planning

variable {S : Num.Solver} {m : DataCenterModel} {F : Spec.Farm}

/-- What is known of the generated problem. -/
theorem generatedQ (hS : Spec.SolvesEmpty S) (h : Spec.IsFarm m F) (hF : F.Valid) (loads : List ℚ)
    (hl : ∀ l ∈ loads, F.Carries l) :
    ∃ p : SSCO ℚ DCSuccess DCFailure, m.toSSCO S (loads.map fun l => [l]) = .ok p ∧ p.verify = .ok () ∧
      Spec.InstQ p F.servers F.switching (fun t j => F.slotCost t (loads.getD (t - 1).toNat 0) j) loads.length ∧
      Spec.CostsQ F.servers F.switching (fun t j => F.slotCost t (loads.getD (t - 1).toNat 0) j) loads.length ∧
      (∀ plan, F.IsFractionalPlan loads plan →
        ∃ out, p.toProb.objective (plan.map fun j => [j]) = .ok ⟨F.fractionalCost loads plan, out⟩) := by
  obtain ⟨p, hp, I⟩ := C87_problem_fractional S hS m F h hF loads fun l hm => (hl l hm).1
  have K := C87_convex_fractional F hF loads hl
  refine ⟨p, hp, (C10_ssco_verify_exact p).1 ⟨?_, ?_, ?_, ?_, ?_, ?_⟩, I, K, ?_⟩
  · rw [I.d]; norm_num
  · rw [I.tEnd]; omega
  · rw [I.d, I.bounds]; rfl
  · rw [I.d, I.switching]; rfl
  · rw [I.bounds]; simpa using K.hu
  · rw [I.switching]; simpa using K.hβ
  · rintro plan ⟨h1, h2⟩
    exact objective_lastQ I plan h1 h2

theorem schedule_planQ {loads : List ℚ} {xs : Schedule ℚ} (h1 : xs.length = loads.length)
    (h2 : ∀ x ∈ xs, Spec.InBox [(F.servers : ℚ)] x) : ∃ plan, xs = plan.map (fun j => [j]) ∧ F.IsFractionalPlan loads plan := by
  obtain ⟨js, rfl, hj⟩ := exists_seqQ xs h2
  exact ⟨js, rfl, by simpa using h1, hj⟩

theorem plan_scheduleQ {loads : List ℚ} {plan : List ℚ} (h : F.IsFractionalPlan loads plan) :
    ∀ y ∈ plan.map (fun j => [j]), Spec.InBox [(F.servers : ℚ)] y := by
  intro y hy
  obtain ⟨k, hk, rfl⟩ := List.mem_map.1 hy
  exact .cons (h.2 k hk) .nil

/-- The slots of a prefix. -/
theorem prefix_cost (loads : List ℚ) (k : Nat) (mv : ℚ → ℚ → ℚ) (plan : List ℚ) (hk : plan.length ≤ k) :
    Spec.totalCost (fun t (j : ℚ) => F.slotCost t ((loads.take k).getD (t - 1).toNat 0) j) mv 1 1 0 plan =
      Spec.totalCost (fun t (j : ℚ) => F.slotCost t (loads.getD (t - 1).toNat 0) j) mv 1 1 0 plan := by
  refine Uni.totalCost_congr _ _ _ fun s a1 a2 x hx => ?_
  have : (loads.take k).getD (s - 1).toNat 0 = loads.getD (s - 1).toNat 0 := by
    simp only [List.getD_eq_getElem?_getD]
    rw [List.getElem?_take_of_lt (by omega)]
  rw [this]

/-- An exact optimiser solves the problems of all prefixes. -/
theorem solves_prefix {opt : Minimizer} (hopt : Spec.ExactMinimizer opt) {loads : List ℚ} {p : SSCO ℚ DCSuccess DCFailure}
    (I : Spec.InstQ p F.servers F.switching (fun t j => F.slotCost t (loads.getD (t - 1).toNat 0) j) loads.length)
    (k : Nat) (h2 : k ≤ loads.length) (hc : F.HasCheapest (loads.take k)) (inverted : Bool) :
    Spec.Solves opt (boundObjective { p.reset 0 with tEnd := (p.reset 0).tEnd + 0 } 1 inverted 0 (k + 0))
      (List.replicate k (0, (F.servers : ℚ))) := by
  have obj : ∀ ks : List ℚ, ks.length = k → (∀ x ∈ ks, DomQ F.servers x) →
      boundObjective { p.reset 0 with tEnd := (p.reset 0).tEnd + 0 } 1 inverted 0 (k + 0) ks = .ok
        (Spec.totalCost (fun t (j : ℚ) => F.slotCost t ((loads.take k).getD (t - 1).toNat 0) j)
          (mvQ F.switching inverted) 1 1 0 ks) := by
    intro ks k1 k2
    rw [prefix_cost _ _ _ _ k1.le]
    exact boundObjective_eq I.switching (by rw [I.tEnd]; exact_mod_cast h2)
      (fun t a b => I.hit t a (b.trans (by exact_mod_cast h2))) 1 inverted ks k1 k2
  have hlen : (loads.take k).length = k := by simpa using h2
  have hbest : ∃ plan, F.IsFractionalPlan (loads.take k) plan ∧ ∀ other, F.IsFractionalPlan (loads.take k) other →
      Spec.totalCost (fun t (j : ℚ) => F.slotCost t ((loads.take k).getD (t - 1).toNat 0) j) (mvQ F.switching inverted) 1 1 0 plan
        ≤ Spec.totalCost (fun t (j : ℚ) => F.slotCost t ((loads.take k).getD (t - 1).toNat 0) j) (mvQ F.switching inverted) 1 1 0
          other := by
    cases inverted
    · exact hc.1
    · exact hc.2
  obtain ⟨plan, ⟨p1, p2⟩, p3⟩ := hbest
  rw [hlen] at p1
  refine hopt _ _ ⟨plan, _, inBoxQ_replicate.2 ⟨p1, p2⟩, obj plan p1 p2, fun ys c hy hc' => ?_⟩
  obtain ⟨y1, y2⟩ := inBoxQ_replicate.1 hy
  rw [obj ys y1 y2] at hc'
  cases hc'
  exact p3 ys ⟨by rw [hlen]; exact y1, y2⟩

/-- Using all servers all the time has a finite cost. -/
theorem full_finiteQ {loads : List ℚ}
    (K : Spec.CostsQ F.servers F.switching (fun t j => F.slotCost t (loads.getD (t - 1).toNat 0) j) loads.length) :
    F.fractionalCost loads (List.replicate loads.length (F.servers : ℚ)) ≠ ⊤ := by
  have : ∀ (k : Nat) (t : Int) (y : ℚ), 1 ≤ t → t + k ≤ loads.length + 1 →
      Spec.totalCost (fun t (j : ℚ) => F.slotCost t (loads.getD (t - 1).toNat 0) j)
        (fun y x => F.switching * max 0 (x - y)) 1 t y (List.replicate k (F.servers : ℚ)) ≠ ⊤ := by
    intro k
    induction k with
    | zero => intro t y _ _; simp [Spec.totalCost]
    | succ k ih =>
      intro t y h4 h5
      simp only [List.replicate_succ, Spec.totalCost]
      rw [WithTop.add_ne_top, WithTop.add_ne_top]
      exact ⟨⟨K.fin t h4 (by push_cast at h5; omega), WithTop.coe_ne_top⟩, ih _ _ (by omega) (by push_cast at h5; omega)⟩
  exact this _ 1 0 le_rfl (by omega)

theorem full_plan {loads : List ℚ} (hF : F.Valid) : F.IsFractionalPlan loads (List.replicate loads.length (F.servers : ℚ)) :=
  ⟨by simp, fun j hj => by
    rw [(List.mem_replicate.1 hj).2]
    exact ⟨by exact_mod_cast hF.servers.le, le_rfl⟩⟩

/-- The hitting cost of the converted problem: in the last slot the switching cost is added, with which all servers are
powered down. -/
def convertedHit (F : Spec.Farm) (loads : List ℚ) (t : Int) (x : Config ℚ) : ECost :=
  F.slotCost t (loads.getD (t - 1).toNat 0) (x.getD 0 0) +
    ((if t = loads.length then halfAbs [F.switching] x else 0 : ℚ) : ECost)

theorem converted_slot {loads : List ℚ} {p : SSCO ℚ DCSuccess DCFailure} (hF : F.Valid)
    (I : Spec.InstQ p F.servers F.switching (fun t j => F.slotCost t (loads.getD (t - 1).toNat 0) j) loads.length)
    (t : Nat) (h1 : 1 ≤ t) (h2 : t ≤ loads.length) :
    Spec.Slot p.intoSCO t (convertedHit F loads t) (halfAbs [F.switching]) := by
  have hb : p.intoSCO.bounds = [(0, (F.servers : ℚ))] := by simp [SSCO.intoSCO, I.bounds]
  have hcall : ∀ x : Config ℚ, Spec.InBoxQ p.intoSCO.bounds x → ∃ o,
      (if (t : Int) = p.tEnd then do
        let hitting ← p.toProb.hitCost t x
        let s ← manhattanScaled p.switchingCost x
        .ok ⟨hitting.cost + (s : ECost), hitting.output⟩
      else p.toProb.hitCost t x) = .ok ⟨convertedHit F loads t x, o⟩ := by
    intro x hx
    rw [hb] at hx
    cases hx with
    | cons hx hn =>
      cases hn
      rename_i j
      obtain ⟨out, ho⟩ := I.hit t (by exact_mod_cast h1) (by exact_mod_cast h2) j hx.1 hx.2
      refine ⟨out, ?_⟩
      rw [ho, I.tEnd, I.switching, manhattanScaled_ok _ _ (by simp)]
      unfold convertedHit
      split_ifs
      · rfl
      · simp
  refine { box := ?_, dim := ?_, certain := ?_, mean := ?_, moves := ?_ }
  · rw [hb]
    intro b hb'
    simp only [List.mem_singleton] at hb'
    subst hb'
    refine ⟨(by exact_mod_cast hF.servers.le : (0 : ℚ) ≤ (F.servers : ℚ)), ⟨0, by simp⟩, ⟨F.servers * 100, ?_⟩⟩
    push_cast
    ring
  · rw [hb]; exact I.d
  · intro x hx
    simp only [SSCO.intoSCO]
    rw [CostFn.callCertain_certain _ _ (by exact_mod_cast h1)]
    exact hcall x hx
  · intro x hx
    simp only [SSCO.intoSCO]
    rw [CostFn.callMean_certain _ _ (by exact_mod_cast h1)]
    exact hcall x hx
  · intro x hx
    rw [hb] at hx
    simp only [SSCO.intoSCO, I.switching]
    exact manhattanScaled_ok _ _ (by rw [hx]; simp)

/-- The cost of a plan in the converted problem. -/
theorem converted_cost {loads : List ℚ} {p : SSCO ℚ DCSuccess DCFailure} (hF : F.Valid) (hne : loads ≠ [])
    (I : Spec.InstQ p F.servers F.switching (fun t j => F.slotCost t (loads.getD (t - 1).toNat 0) j) loads.length)
    (plan : List ℚ) (hp : F.IsFractionalPlan loads plan) :
    Spec.scheduleCost 1 (convertedHit F loads) (halfAbs [F.switching]) 1 (plan.map fun j => [j]) = F.fractionalCost loads plan ∧
      ∃ out, p.intoSCO.toProb.objective (plan.map fun j => [j]) = .ok ⟨F.fractionalCost loads plan, out⟩ := by
  have hlen := List.length_pos_of_ne_nil hne
  have hb : p.intoSCO.bounds = [(0, (F.servers : ℚ))] := by simp [SSCO.intoSCO, I.bounds]
  obtain ⟨c, o, h1, h2⟩ := OfflineFrac.objective_eq p.intoSCO (convertedHit F loads) (halfAbs [F.switching]) loads.length I.tEnd
    hlen (fun t a b => converted_slot hF I t a b) 1 (plan.map fun j => [j]) (by simpa using hp.1)
    (by rw [hb]; simp)
  have h2' := h2 (by
    intro x hx
    obtain ⟨k, hk, rfl⟩ := List.mem_map.1 hx
    rw [hb]
    exact .cons (hp.2 k hk) .nil)
  obtain ⟨out, ho⟩ := objective_lastQ I plan hp.1 hp.2
  have h3 : p.intoSCO.toProb.objective (plan.map fun j => [j]) = .ok ⟨F.fractionalCost loads plan, out⟩ := by
    rw [C04_into_sco_preserves_objective p _ (by rw [I.tEnd]; simp [hp.1]) (by rw [I.tEnd]; omega) (by rw [I.d]; norm_num)
      (by
        intro x hx
        obtain ⟨k, _, rfl⟩ := List.mem_map.1 hx
        rw [I.d]; rfl) (by rw [I.switching, I.d]; rfl)]
    exact ho
  change p.intoSCO.toProb.objective _ = _ at h1
  rw [h3] at h1
  injection h1 with h1
  injection h1 with h1 _
  rw [hb] at h2'
  exact ⟨h2'.symm.trans h1.symm, out, h3⟩

theorem grid_plan {loads : List ℚ} {xs : Schedule ℚ} (h : Spec.GridSchedule [(0, (F.servers : ℚ))] loads.length xs) :
    ∃ plan, xs = plan.map (fun j => [j]) ∧ F.IsFractionalPlan loads plan ∧ ∀ j ∈ plan, Spec.OnGrid j := by
  obtain ⟨h1, h2⟩ := h
  have : ∀ xs : Schedule ℚ, (∀ x ∈ xs, Spec.GridPoint [(0, (F.servers : ℚ))] x) → ∃ plan : List ℚ,
      xs = plan.map (fun j => [j]) ∧ (∀ j ∈ plan, 0 ≤ j ∧ j ≤ (F.servers : ℚ)) ∧ ∀ j ∈ plan, Spec.OnGrid j := by
    intro xs
    induction xs with
    | nil => intro _; exact ⟨[], rfl, by simp, by simp⟩
    | cons x xs ih =>
      intro h
      obtain ⟨plan, rfl, h3, h4⟩ := ih fun y hy => h y (List.mem_cons_of_mem _ hy)
      obtain ⟨h5, h6⟩ := h x List.mem_cons_self
      cases h5 with
      | cons h5 hn =>
        cases hn
        exact ⟨_ :: plan, rfl, List.forall_mem_cons.2 ⟨h5, h3⟩, List.forall_mem_cons.2 ⟨h6 _ (by simp), h4⟩⟩
  obtain ⟨plan, rfl, h3, h4⟩ := this xs h2
  exact ⟨plan, rfl, ⟨by simpa using h1, h3⟩, h4⟩

theorem plan_grid {loads : List ℚ} {plan : List ℚ} (h : F.IsFractionalPlan loads plan) (hg : ∀ j ∈ plan, Spec.OnGrid j) :
    Spec.GridSchedule [(0, (F.servers : ℚ))] loads.length (plan.map fun j => [j]) := by
  refine ⟨by simpa using h.1, fun x hx => ?_⟩
  obtain ⟨k, hk, rfl⟩ := List.mem_map.1 hx
  exact ⟨.cons (h.2 k hk) .nil, by simpa using hg k hk⟩

theorem empty_of_exact (hS : Spec.Exact S) : Spec.SolvesEmpty S := by
  intro f init cs
  refine ⟨fun q hq => List.length_eq_zero_iff.1 (hS.probes [] f init cs q hq), ?_, hS.done [] f init cs⟩
  exact List.length_eq_zero_iff.1 (inBoxQ_length (hS.inside [] f init cs (by simp)))

end Planning

open Planning

section
variable (S : Num.Solver) (m : DataCenterModel) (F : Spec.Farm) (h : Spec.IsFarm m F) (hF : F.Valid)
  (loads : List ℚ) (hl : ∀ l ∈ loads, F.Carries l)
include h hF hl

/-- **C95** Backward-recurrent capacity provisioning, started from the model of a data center with one type of servers and
jobs, returns a cheapest fractional plan for the loads together with what it costs, provided that the optimiser is exact and
the loads of the first slots, for all numbers of slots, have cheapest plans. -/
theorem C95_backward (hS : Spec.SolvesEmpty S) (opt : Minimizer) (hopt : Spec.ExactMinimizer opt)
    (hc : ∀ k, F.HasCheapest (loads.take k)) :
    ∃ plan out, solveBackward opt (m.toSSCO S (loads.map fun l => [l])) ⟨false, 1, none⟩ =
        .ok (plan.map fun j => [j], ⟨F.fractionalCost loads plan, out⟩) ∧
      F.IsFractionalPlan loads plan ∧ F.fractionalCost loads plan ≠ ⊤ ∧
      ∀ other, F.IsFractionalPlan loads other → F.fractionalCost loads plan ≤ F.fractionalCost loads other := by
  obtain ⟨p, hp, hv, I, K, hobj⟩ := generatedQ hS h hF loads hl
  obtain ⟨xs, bs, c, r1, r2, -, r4, r5, r6⟩ := C53_brcp_optimal opt p F.servers F.switching 1 loads.length _ I.d I.bounds
    I.switching I.tEnd K.hu.le K.hβ one_pos I.hit K.fin K.conv fun k _ h2 inverted => solves_prefix hopt I k h2 (hc k) inverted
  have hob : ∀ xs, p.toProb.objectiveWithDefault' xs [0] 1 false p.tEnd = p.toProb.objective xs := by
    intro xs
    rw [← default_oneQ I.d]
    rfl
  rw [hob] at r5
  rw [I.bounds] at r4
  obtain ⟨plan, rfl, hplan⟩ := schedule_planQ (F := F) r2 r4
  obtain ⟨out, ho⟩ := hobj plan hplan
  have hcc : c.cost = F.fractionalCost loads plan := by
    rw [r5] at ho
    injection ho with ho
    rw [ho]
  have hmin : ∀ other, F.IsFractionalPlan loads other → F.fractionalCost loads plan ≤ F.fractionalCost loads other := by
    intro other hother
    obtain ⟨c', c1, c2⟩ := r6 (other.map fun j => [j]) (by simpa using hother.1) (by rw [I.bounds]; exact plan_scheduleQ hother)
    obtain ⟨o2, h2⟩ := hobj other hother
    rw [hob, h2] at c1
    cases c1
    rw [← hcc]
    exact c2
  refine ⟨plan, out, ?_, hplan, ne_top_of_le_ne_top (full_finiteQ K) (hmin _ (full_plan hF)), hmin⟩
  unfold solveBackward
  rw [C67_solve_ok_iff]
  exact ⟨p, _, hp, hv, r1, rfl, ho⟩

/-- **C95** Convex optimisation with an exact optimiser returns a cheapest of all plans which use multiples of a hundredth of
a server, together with what it costs. -/
theorem C95_convex (hS : Spec.Exact S) (hne : loads ≠ []) :
    ∃ plan out, solveConvex S (m.toSCO S (loads.map fun l => [l])) ⟨false, 1, none⟩ =
        .ok (plan.map fun j => [j], ⟨F.fractionalCost loads plan, out⟩) ∧
      F.IsFractionalPlan loads plan ∧ (∀ j ∈ plan, Spec.OnGrid j) ∧ F.fractionalCost loads plan ≠ ⊤ ∧
      ∀ other, F.IsFractionalPlan loads other → (∀ j ∈ other, Spec.OnGrid j) →
        F.fractionalCost loads plan ≤ F.fractionalCost loads other := by
  obtain ⟨p, hp, hv, I, K, hobj⟩ := generatedQ (empty_of_exact hS) h hF loads hl
  have hlen := List.length_pos_of_ne_nil hne
  have hb : p.intoSCO.bounds = [(0, (F.servers : ℚ))] := by simp [SSCO.intoSCO, I.bounds]
  obtain ⟨xs, r1, r2, r3⟩ := OfflineFrac.C60_convex_optimization S hS.toSound p.intoSCO (convertedHit F loads)
    (halfAbs [F.switching]) loads.length I.tEnd hlen (fun t a b => converted_slot hF I t a b) ⟨false, 1, none⟩ rfl
  have r4 := (r3 hS).2
  rw [hb] at r2 r4
  obtain ⟨plan, rfl, hplan, hg⟩ := grid_plan (F := F) r2
  obtain ⟨e1, out, ho⟩ := converted_cost hF hne I plan hplan
  have hmin : ∀ other, F.IsFractionalPlan loads other → (∀ j ∈ other, Spec.OnGrid j) →
      F.fractionalCost loads plan ≤ F.fractionalCost loads other := by
    intro other hother hog
    have := r4 _ (plan_grid hother hog) (by simp)
    simp only [List.length_singleton] at this
    rwa [e1, (converted_cost hF hne I other hother).1] at this
  refine ⟨plan, out, ?_, hplan, hg, ne_top_of_le_ne_top (full_finiteQ K) (hmin _ (full_plan hF) ?_), hmin⟩
  · unfold solveConvex
    rw [C67_solve_ok_iff]
    refine ⟨p.intoSCO, _, ?_, (C10_sco_verify_exact p.intoSCO).1 ⟨?_, ?_, ?_⟩, r1, rfl, ho⟩
    · unfold DataCenterModel.toSCO
      rw [hp]
      rfl
    · show 0 < p.d
      rw [I.d]; norm_num
    · show 0 ≤ p.tEnd
      rw [I.tEnd]; omega
    · show ((p.bounds.map _).length : Int) = p.d
      rw [I.bounds, I.d]; rfl
  · intro j hj
    rw [(List.mem_replicate.1 hj).2]
    exact ⟨F.servers * 100, by push_cast; ring⟩

/-- **C95** The static fractional optimum with an exact optimiser is a number of servers, a multiple of a hundredth, which,
if it is never changed, costs least. -/
theorem C95_static (hS : Spec.Exact S) (hne : loads ≠ []) :
    ∃ (j : ℚ) (out : _), solveStaticFractional S (m.toSCO S (loads.map fun l => [l])) ⟨false, 1, none⟩ =
        .ok (List.replicate loads.length [j], ⟨F.fractionalCost loads (List.replicate loads.length j), out⟩) ∧
      0 ≤ j ∧ j ≤ F.servers ∧ Spec.OnGrid j ∧ F.fractionalCost loads (List.replicate loads.length j) ≠ ⊤ ∧
      ∀ i : ℚ, 0 ≤ i → i ≤ F.servers → Spec.OnGrid i →
        F.fractionalCost loads (List.replicate loads.length j) ≤ F.fractionalCost loads (List.replicate loads.length i) := by
  obtain ⟨p, hp, hv, I, K, hobj⟩ := generatedQ (empty_of_exact hS) h hF loads hl
  have hlen := List.length_pos_of_ne_nil hne
  have hb : p.intoSCO.bounds = [(0, (F.servers : ℚ))] := by simp [SSCO.intoSCO, I.bounds]
  obtain ⟨x, r1, r2, r3⟩ := OfflineFrac.C61_static_fractional S hS.toSound p.intoSCO (convertedHit F loads)
    (halfAbs [F.switching]) loads.length I.tEnd hlen (fun t a b => converted_slot hF I t a b) ⟨false, 1, none⟩ rfl (Or.inl rfl)
  have r4 := r3 hS
  rw [hb] at r2 r4
  obtain ⟨r2, r5⟩ := r2
  cases r2 with
  | cons r2 hn =>
    cases hn
    rename_i j
    have hpl : ∀ i : ℚ, 0 ≤ i → i ≤ F.servers → F.IsFractionalPlan loads (List.replicate loads.length i) := fun i h0 h1 =>
      ⟨by simp, fun k hk => by rw [(List.mem_replicate.1 hk).2]; exact ⟨h0, h1⟩⟩
    have hmin : ∀ i : ℚ, 0 ≤ i → i ≤ F.servers → Spec.OnGrid i →
        F.fractionalCost loads (List.replicate loads.length j) ≤ F.fractionalCost loads (List.replicate loads.length i) := by
      intro i h0 h1 hi
      have := r4 [i] ⟨.cons ⟨h0, h1⟩ .nil, by simpa using hi⟩
      have e1 := (converted_cost hF hne I _ (hpl i h0 h1)).1
      have e2 := (converted_cost hF hne I _ (hpl j r2.1 r2.2)).1
      rw [List.map_replicate] at e1 e2
      rw [← e1, ← e2]
      exact this
    obtain ⟨-, out, ho⟩ := converted_cost hF hne I _ (hpl j r2.1 r2.2)
    rw [List.map_replicate] at ho
    refine ⟨j, out, ?_, r2.1, r2.2, r5 j (by simp), ne_top_of_le_ne_top (full_finiteQ K)
      (hmin F.servers (by exact_mod_cast hF.servers.le) le_rfl ⟨F.servers * 100, by push_cast; ring⟩), hmin⟩
    unfold solveStaticFractional
    rw [C67_solve_ok_iff]
    refine ⟨p.intoSCO, _, ?_, (C10_sco_verify_exact p.intoSCO).1 ⟨?_, ?_, ?_⟩, r1, rfl, ho⟩
    · unfold DataCenterModel.toSCO
      rw [hp]
      rfl
    · show 0 < p.d
      rw [I.d]; norm_num
    · show 0 ≤ p.tEnd
      rw [I.tEnd]; omega
    · show ((p.bounds.map _).length : Int) = p.d
      rw [I.bounds, I.d]; rfl

end

/-! ## Examples -/

namespace Planning
variable {F : Spec.Farm} {loads : List ℚ}

/-- If fewer than `j` servers never suffice and every slot is cheapest with `j` servers, using `j` servers all the time is
cheapest. -/
theorem cheapest_constant (hF : F.Valid) (j : ℚ) (h0 : 0 ≤ j) (hj : j ≤ F.servers)
    (hlow : ∀ t : Int, 1 ≤ t → t ≤ loads.length → ∀ i, i < j → F.slotCost t (loads.getD (t - 1).toNat 0) i = ⊤)
    (hbest : ∀ t : Int, 1 ≤ t → t ≤ loads.length → ∀ i, j ≤ i → i ≤ F.servers →
      F.slotCost t (loads.getD (t - 1).toNat 0) j ≤ F.slotCost t (loads.getD (t - 1).toNat 0) i) : F.HasCheapest loads := by
  have hpl : F.IsFractionalPlan loads (List.replicate loads.length j) :=
    ⟨by simp, fun k hk => by rw [(List.mem_replicate.1 hk).2]; exact ⟨h0, hj⟩⟩
  have hβ := hF.switching.le
  -- the switching costs are only paid in the first slot
  have up : ∀ (xs : List ℚ) (t : Int) (y : ℚ), 1 ≤ t → t + xs.length ≤ loads.length + 1 → (∀ x ∈ xs, 0 ≤ x ∧ x ≤ F.servers) →
      Spec.totalCost (fun t (j : ℚ) => F.slotCost t (loads.getD (t - 1).toNat 0) j) (fun y x => F.switching * max 0 (x - y))
        1 t y (List.replicate xs.length j) ≤
      Spec.totalCost (fun t (j : ℚ) => F.slotCost t (loads.getD (t - 1).toNat 0) j) (fun y x => F.switching * max 0 (x - y))
        1 t y xs := by
    intro xs
    induction xs with
    | nil => intro t y _ _ _; exact le_rfl
    | cons x xs ih =>
      intro t y h1 h2 h3
      simp only [List.length_cons] at h2
      push_cast at h2
      have hx := h3 x List.mem_cons_self
      have ih' := ih (t + 1) x (by omega) (by omega) fun z hz => h3 z (List.mem_cons_of_mem _ hz)
      simp only [List.length_cons, List.replicate_succ, Spec.totalCost]
      rcases lt_or_ge x j with hlt | hge
      · rw [hlow t h1 (by omega) x hlt]
        simp
      · refine add_le_add (add_le_add (hbest t h1 (by omega) x hge hx.2) ?_) (le_trans (le_of_eq ?_) ih')
        · refine WithTop.coe_le_coe.2 ?_
          rw [one_mul, one_mul]
          exact mul_le_mul_of_nonneg_left (max_le_max le_rfl (by linarith)) hβ
        · cases xs with
          | nil => rfl
          | cons z zs =>
            simp only [List.length_cons, List.replicate_succ, Spec.totalCost, sub_self, max_self]
            rw [max_eq_left (by linarith : j - x ≤ 0)]
  have down : ∀ (xs : List ℚ) (t : Int) (y y' : ℚ), 1 ≤ t → t + xs.length ≤ loads.length + 1 → y' ≤ j →
      (∀ x ∈ xs, 0 ≤ x ∧ x ≤ F.servers) →
      Spec.totalCost (fun t (j : ℚ) => F.slotCost t (loads.getD (t - 1).toNat 0) j) (fun y x => F.switching * max 0 (y - x))
        1 t y' (List.replicate xs.length j) ≤
      Spec.totalCost (fun t (j : ℚ) => F.slotCost t (loads.getD (t - 1).toNat 0) j) (fun y x => F.switching * max 0 (y - x))
        1 t y xs := by
    intro xs
    induction xs with
    | nil => intro t y y' _ _ _ _; exact le_rfl
    | cons x xs ih =>
      intro t y y' h1 h2 hy h3
      simp only [List.length_cons] at h2
      push_cast at h2
      have hx := h3 x List.mem_cons_self
      have ih' := ih (t + 1) x j (by omega) (by omega) le_rfl fun z hz => h3 z (List.mem_cons_of_mem _ hz)
      simp only [List.length_cons, List.replicate_succ, Spec.totalCost]
      rcases lt_or_ge x j with hlt | hge
      · rw [hlow t h1 (by omega) x hlt]
        simp
      · refine add_le_add (add_le_add (hbest t h1 (by omega) x hge hx.2) ?_) ih'
        refine WithTop.coe_le_coe.2 ?_
        rw [one_mul, one_mul, max_eq_left (by linarith : y' - j ≤ 0), mul_zero]
        exact mul_nonneg hβ (le_max_left _ _)
  refine ⟨⟨_, hpl, fun other ho => ?_⟩, ⟨_, hpl, fun other ho => ?_⟩⟩
  · have := up other 1 0 le_rfl (by rw [ho.1]; omega) ho.2
    rwa [ho.1] at this
  · have := down other 1 0 0 le_rfl (by rw [ho.1]; omega) h0 ho.2
    rwa [ho.1] at this

end Planning

/-- The data center without loss of revenue by delays. -/
def Ex.patientFarm : Spec.Farm := { Ex.farm with gamma := 0 }

def Ex.patientModel : DataCenterModel := { Ex.farmModel with lossModel := fun _ => some ⟨0, 1⟩ }

theorem Ex.patient_is : Spec.IsFarm Ex.patientModel Ex.patientFarm :=
  ⟨_, _, _, _, rfl, rfl, rfl, rfl, rfl, rfl, rfl, fun _ _ => rfl, fun u => by
    simp only [Ex.patientModel, Ex.farmModel, ConsumptionModel.consumption, lookup, bind, Except.bind, Ex.patientFarm, Ex.farm]
    congr 1
    ring, fun t p _ => rfl, rfl, ⟨_, rfl, by norm_num [SwitchingCost.switchingCost, Ex.patientFarm, Ex.farm]⟩, rfl⟩

theorem Ex.patient_valid : Ex.patientFarm.Valid :=
  { Ex.farm_valid with gamma := le_rfl }

/-- Two jobs per slot need `10 / 9` servers, and nothing is gained by using more. -/
theorem Ex.patient_cheapest (k : Nat) : Ex.patientFarm.HasCheapest (([2, 2, 2] : List ℚ).take k) := by
  have hload : ∀ t : Int, 1 ≤ t → t ≤ ((([2, 2, 2] : List ℚ).take k).length : Int) →
      (([2, 2, 2] : List ℚ).take k).getD (t - 1).toNat 0 = 2 := by
    intro t h1 h2
    have hlt : (t - 1).toNat < (([2, 2, 2] : List ℚ).take k).length := by omega
    rw [List.getD_eq_getElem _ _ hlt]
    have key : ∀ l ∈ ([2, 2, 2] : List ℚ), l = 2 := by simp
    exact key _ (List.mem_of_mem_take (List.getElem_mem hlt))
  have huse : ∀ i : ℚ, Ex.patientFarm.use 2 i = 1 / i := by
    intro i
    norm_num [Spec.Farm.use, Ex.patientFarm, Ex.farm]
  refine cheapest_constant Ex.patient_valid (10 / 9) (by norm_num) (by norm_num [Ex.patientFarm, Ex.farm]) ?_ ?_
  · intro t h1 h2 i hi
    rw [hload t h1 h2]
    unfold Spec.Farm.slotCost
    split_ifs with h3 h4 h5
    · norm_num at h4
    · rfl
    · exfalso
      rw [huse] at h5
      have h6 : 1 / i ≤ 9 / 10 := h5.2
      rw [div_le_iff₀ (not_le.1 h3)] at h6
      linarith
    · rfl
  · intro t h1 h2 i hi _
    rw [hload t h1 h2]
    have hi0 : (0 : ℚ) < i := by linarith
    have h5 : 1 / i ≤ 9 / 10 := by
      rw [div_le_iff₀ hi0]
      linarith
    have h6 : ∀ i : ℚ, 0 < i → i * (1 / i + 1) = 1 + i := by
      intro i hi
      field_simp
    have hp : 0 < Ex.patientFarm.price t := Ex.patient_valid.price t h1
    unfold Spec.Farm.slotCost
    rw [huse, huse, if_neg (by norm_num), if_neg (not_le.2 hi0), if_pos ⟨by norm_num, by norm_num [Ex.patientFarm, Ex.farm]⟩,
      if_pos ⟨by linarith, h5⟩]
    refine WithTop.coe_le_coe.2 ?_
    have e : ∀ x : ℚ, Ex.patientFarm.gamma * x * 2 = 0 := by
      intro x
      simp [Ex.patientFarm]
    have ep : ∀ u : ℚ, Ex.patientFarm.power u = u + 1 := fun _ => rfl
    rw [e, e, add_zero, add_zero, ep, ep, h6 _ hi0, h6 _ (by norm_num)]
    exact mul_le_mul_of_nonneg_left (by linarith) hp.le

theorem Ex.patient_carries : ∀ l ∈ ([2, 2, 2] : List ℚ), Ex.patientFarm.Carries l := by
  intro l hl
  have : l = 2 := by simpa using hl
  subst this
  norm_num [Spec.Farm.Carries, Spec.Farm.use, Ex.patientFarm, Ex.farm]

example (S : Num.Solver) (hS : Spec.SolvesEmpty S) (opt : Minimizer) (hopt : Spec.ExactMinimizer opt) :=
  C95_backward S Ex.patientModel Ex.patientFarm Ex.patient_is Ex.patient_valid [2, 2, 2] Ex.patient_carries hS opt hopt
    Ex.patient_cheapest

example : ∃ S : Num.Solver, ∃ plan out, solveConvex S (Ex.farmModel.toSCO S [[3], [0], [7], [2]]) ⟨false, 1, none⟩ =
    .ok (plan.map fun j => [j], ⟨Ex.farm.fractionalCost [3, 0, 7, 2] plan, out⟩) := by
  obtain ⟨S, hE, _⟩ := exists_exact
  obtain ⟨plan, out, h1, _⟩ := C95_convex S Ex.farmModel Ex.farm Ex.farm_is Ex.farm_valid [3, 0, 7, 2] Ex.farm_carries hE (by simp)
  exact ⟨S, plan, out, h1⟩

example (S : Num.Solver) (hS : Spec.Exact S) := C95_static S Ex.farmModel Ex.farm Ex.farm_is Ex.farm_valid [3, 0, 7, 2]
  Ex.farm_carries hS (by simp)

end Soco
