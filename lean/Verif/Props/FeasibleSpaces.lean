import Verif.Props.Updates
import Verif.Props.CostFn

/-!
# C06: schedules of finite objective, for every kind of problem
-/

namespace Soco

section
variable {T C D : Type} [Value T] [OutSuccess C]

/-- A list of extended costs with finite sum has finite members. -/
theorem mem_ne_top_of_sum {cs : List ECost} (h : cs.sum ≠ ⊤) : ∀ c ∈ cs, c ≠ ⊤ := by
  induction cs with
  | nil => simp
  | cons c cs ih =>
    simp only [List.sum_cons, ne_eq, WithTop.add_eq_top, not_or] at h
    intro y hy
    rcases List.mem_cons.1 hy with rfl | hy
    · exact h.1
    · exact ih h.2 y hy

/-- If the objective of a schedule is finite then so is the hitting cost of each slot of the horizon. -/
theorem finite_objective_slots (p : Prob T C D) (xs : Schedule T) (dflt : Config T) (α : ℚ) (inv : Bool) (tEnd : Int)
    (c : Cost C D) (h : p.objectiveWithDefault' xs dflt α inv tEnd = .ok c) (hfin : c.cost ≠ ⊤) (t : Int) (h1 : 1 ≤ t)
    (h2 : t ≤ tEnd) (h3 : t ≤ p.tEnd) :
    ∃ a, p.hitCost t ((xs.get t).getD dflt) = .ok a ∧ a.cost ≠ ⊤ := by
  unfold Prob.objectiveWithDefault' sumOverSchedule at h
  cases hm : (timeRange 1 tEnd).mapM fun t =>
      p.slotCost α inv t ((xs.get (t - 1)).getD dflt) ((xs.get t).getD dflt) with
  | error e => rw [hm] at h; cases h
  | ok cs =>
    rw [hm] at h
    cases h
    rw [Cost.sum_cost] at hfin
    have ht : (timeRange 1 tEnd)[(t - 1).toNat]? = some t := by
      unfold timeRange
      rw [List.getElem?_map, List.getElem?_range (by omega)]
      simp; omega
    obtain ⟨b, hb1, hb2⟩ := mapM_ok_get hm ht
    have hb3 : b.cost ≠ ⊤ := mem_ne_top_of_sum hfin _ (List.mem_map_of_mem (List.mem_of_getElem? hb1))
    unfold Prob.slotCost Prob.hitOrNone at hb2
    rw [if_neg (by omega)] at hb2
    cases hh : p.hitCost t ((xs.get t).getD dflt) with
    | error e => rw [hh] at hb2; cases hb2
    | ok a =>
      rw [hh] at hb2
      cases hmv : p.movement ((xs.get (t - 1)).getD dflt) ((xs.get t).getD dflt) inv with
      | error e => simp only [bind, Except.bind, hmv] at hb2; cases hb2
      | ok m =>
        simp only [bind, Except.bind, hmv, Except.ok.injEq] at hb2
        subst hb2
        refine ⟨a, rfl, fun ha => hb3 ?_⟩
        simp [ha]

omit [Value T] in
/-- The configurations of a schedule as those of its slots. -/
theorem exists_slot_of_mem {xs : Schedule T} {x : Config T} (hx : x ∈ xs) (dflt : Config T) :
    ∃ t : Int, 1 ≤ t ∧ t ≤ xs.length ∧ (xs.get t).getD dflt = x := by
  obtain ⟨i, hi, rfl⟩ := List.getElem_of_mem hx
  refine ⟨(i : Int) + 1, by omega, by omega, ?_⟩
  unfold Schedule.get access
  rw [if_pos ⟨by omega, by omega⟩]
  simp [hi]

end

section
variable {T C D : Type} [Value T] [OutSuccess C] [OutFailure D]

/-- **C06** (schedules of smoothed convex optimisation). A schedule of finite objective stays within the lower and upper
bounds in every slot, whatever the norm measuring movement. -/
theorem C06_finite_objective_sco (p : SCO T C D) (xs : Schedule T) (dflt : Config T) (α : ℚ) (inv : Bool)
    (hT : (xs.length : Int) ≤ p.tEnd) (c : Cost C D)
    (h : p.toProb.objectiveWithDefault' xs dflt α inv p.tEnd = .ok c) (hfin : c.cost ≠ ⊤) :
    ∀ x ∈ xs, Spec.InBoxes p.bounds x := by
  intro x hx
  obtain ⟨t, h1, h2, h3⟩ := exists_slot_of_mem hx dflt
  obtain ⟨a, h4, h5⟩ := finite_objective_slots _ _ _ _ _ _ _ h hfin t h1 (by omega) (by show t ≤ p.tEnd; omega)
  rw [h3] at h4
  simp only [SCO.toProb, CostFn.callMeanWithinBounds] at h4
  cases hw : withinPairs p.bounds x with
  | error e => rw [hw] at h4; cases h4
  | ok b =>
    cases b with
    | true => exact (withinPairs_eq _ _).1.1 hw
    | false =>
      rw [hw] at h4
      simp only [bind, Except.bind, CostFn.outsideCost] at h4
      cases h4
      exact absurd rfl h5

/-- **C06** (schedules of simplified smoothed convex optimisation). The same, without assumptions on the shapes of
configurations and switching costs. -/
theorem C06_finite_objective_ssco (p : SSCO T C D) (xs : Schedule T) (dflt : Config T) (α : ℚ) (inv : Bool)
    (hT : (xs.length : Int) ≤ p.tEnd) (c : Cost C D)
    (h : p.toProb.objectiveWithDefault' xs dflt α inv p.tEnd = .ok c) (hfin : c.cost ≠ ⊤) :
    ∀ x ∈ xs, Spec.InBox p.bounds x := by
  intro x hx
  obtain ⟨t, h1, h2, h3⟩ := exists_slot_of_mem hx dflt
  obtain ⟨a, h4, h5⟩ := finite_objective_slots _ _ _ _ _ _ _ h hfin t h1 (by omega) (by show t ≤ p.tEnd; omega)
  rw [h3] at h4
  simp only [SSCO.toProb, CostFn.callMeanWithinBounds] at h4
  cases hw : withinVec p.bounds x with
  | error e => rw [hw] at h4; cases h4
  | ok b =>
    cases b with
    | true => exact (withinVec_eq _ _).1.1 hw
    | false =>
      rw [hw] at h4
      simp only [bind, Except.bind, CostFn.outsideCost] at h4
      cases h4
      exact absurd rfl h5

end

section
variable {T : Type} [Value T]

/-- **C06** (schedules of balanced-load optimisation). A schedule of finite objective stays within the bounds in every
slot, whatever the numerical solver returns. -/
theorem C06_finite_objective_sblo (S : Num.Solver) (p : SBLO T) (xs : Schedule T) (dflt : Config T) (α : ℚ) (inv : Bool)
    (hT : (xs.length : Int) ≤ p.tEnd) (c : Cost DCSuccess DCFailure)
    (h : (p.toProb S).objectiveWithDefault' xs dflt α inv p.tEnd = .ok c) (hfin : c.cost ≠ ⊤) :
    ∀ x ∈ xs, Spec.InBox p.bounds x := by
  intro x hx
  obtain ⟨t, h1, h2, h3⟩ := exists_slot_of_mem hx dflt
  obtain ⟨a, h4, h5⟩ := finite_objective_slots _ _ _ _ _ _ _ h hfin t h1 (by omega) (by show t ≤ p.tEnd; omega)
  rw [h3] at h4
  simp only [SBLO.toProb, SBLO.hitCost, CostFn.callCertainWithinBounds] at h4
  cases hw : withinVec p.bounds x with
  | error e => rw [hw] at h4; cases h4
  | ok b =>
    cases b with
    | true => exact (withinVec_eq _ _).1.1 hw
    | false =>
      rw [hw] at h4
      simp only [bind, Except.bind, CostFn.outsideCost] at h4
      cases h4
      exact absurd rfl h5

/-- **C06** (schedules of load optimisation). The bounds are not consulted here, see
`C06_slo_ignores_bounds_counterexample`. What a finite objective says is that each slot has a load and as many servers
as that load asks for. -/
theorem C06_finite_objective_slo (p : SLO T) (xs : Schedule T) (dflt : Config T) (α : ℚ) (inv : Bool)
    (hT : (xs.length : Int) ≤ p.tEnd) (c : Cost Unit DCFailure)
    (h : p.toProb.objectiveWithDefault' xs dflt α inv p.tEnd = .ok c) (hfin : c.cost ≠ ⊤) :
    ∀ (i : Nat) (x : Config T), xs[i]? = some x → ∃ l, p.load[i]? = some l ∧ l ≤ Config.total x := by
  intro i x hx
  have hi : i < xs.length := (List.getElem?_eq_some_iff.1 hx).1
  obtain ⟨a, h4, h5⟩ := finite_objective_slots _ _ _ _ _ _ _ h hfin ((i : Int) + 1) (by omega) (by omega)
    (by show (i : Int) + 1 ≤ p.tEnd; omega)
  have e : (xs.get ((i : Int) + 1)).getD dflt = x := by
    unfold Schedule.get access
    rw [if_pos ⟨by omega, by omega⟩]
    simp [hx]
  rw [e] at h4
  simp only [SLO.toProb, SLO.hitCost] at h4
  cases ha : access p.load ((i : Int) + 1) with
  | none => rw [ha] at h4; cases h4
  | some l =>
    rw [ha] at h4
    simp only at h4
    split_ifs at h4 with h6
    · cases h4; exact absurd rfl h5
    · refine ⟨l, ?_, not_lt.1 h6⟩
      unfold access at ha
      split_ifs at ha with h7
      simpa using ha

end

/-- The schedule `xs2` of `ssco2` has a finite objective; the same problem with a norm is met by the theorem for norms. -/
example : ∃ c : Cost Unit Unit, Ex.ssco2.toProb.objectiveWithDefault' Ex.xs2 [0, 0] 1 false 3 = .ok c ∧ c.cost ≠ ⊤ ∧
    (Ex.xs2.length : Int) ≤ Ex.ssco2.tEnd := by
  refine ⟨_, rfl, ?_, by decide⟩
  decide +kernel

/-- A problem with lower bounds, a norm and a schedule of finite objective. -/
example : ∃ c : Cost Unit Unit, (⟨1, 2, [(1, 4)], fun x => .ok (manhattan x), CostFn.new 1
    (SingleCostFn.certain fun _ _ => .ok (Cost.raw (2 : ECost)))⟩ : SCO ℤ Unit Unit).toProb.objectiveWithDefault'
      [[1], [3]] [0] 1 false 2 = .ok c ∧ c.cost ≠ ⊤ := by
  refine ⟨_, rfl, ?_⟩
  decide +kernel

/-- And `slo2` has schedules of finite objective. -/
example : ∃ c : Cost Unit DCFailure, Ex.slo2.toProb.objectiveWithDefault' [[1, 0], [2, 1], [1, 2]] [0, 0] 1 false 3
    = .ok c ∧ c.cost ≠ ⊤ := by
  refine ⟨_, rfl, ?_⟩
  decide +kernel

end Soco
