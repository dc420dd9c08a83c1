import Verif.Props.Convert
import Verif.Props.Outputs

/-!
# C09 (the integral problem of a fractional one, rounding schedules up) and C15 (failing samples)
-/

namespace Soco

section
variable {C D : Type} [OutSuccess C] [OutFailure D]

theorem within_floor (bs : List ℚ) (x : Config ℤ) : withinVec (floorVec bs) x = withinVec bs (toFrac x) := by
  have hz : ∀ (bs : List ℚ) (x : List ℤ),
      (List.zipWith (fun (u j : ℤ) => decide (j ≥ 0) && decide (j ≤ u)) (floorVec bs) x).all id =
      (List.zipWith (fun (u j : ℚ) => decide (j ≥ 0) && decide (j ≤ u)) bs (toFrac x)).all id := by
    intro bs
    induction bs with
    | nil => intro x; rfl
    | cons b bs ih =>
      intro x
      cases x with
      | nil => rfl
      | cons j x =>
        have := ih x
        simp only [floorVec, toFrac, List.map_cons, List.zipWith_cons_cons, List.all_cons, id_eq] at this ⊢
        rw [this]
        congr 2
        · simp
        · simp [Int.le_floor]
  unfold withinVec
  rw [hz]
  simp [floorVec, toFrac]

/-- **C09** (integral problem, decision space). An integral configuration respects the bounds of the integral problem
exactly if it respects those of the fractional problem. -/
theorem C09_discretised_bounds (p : SSCO ℚ C D) (x : Config ℤ) :
    Spec.InBox p.intoI.bounds x ↔ Spec.InBox p.bounds (x.map fun j : ℤ => (j : ℚ)) := by
  unfold Spec.InBox SSCO.intoI floorVec
  rw [List.forall₂_map_left_iff, List.forall₂_map_right_iff]
  constructor <;> refine List.Forall₂.imp ?_ <;> rintro u j ⟨h1, h2⟩
  · exact ⟨by exact_mod_cast h1, Int.le_floor.1 h2⟩
  · exact ⟨by exact_mod_cast h1, Int.le_floor.2 h2⟩

/-- **C09** (integral problem, slots). It charges for a configuration what the fractional problem charges. -/
theorem C09_discretised_hit_cost (p : SSCO ℚ C D) (t : Int) (ht : 1 ≤ t) (hc : p.hittingCost.CertainAt t)
    (x : Config ℤ) : p.intoI.toProb.hitCost t x = p.toProb.hitCost t (x.map fun j : ℤ => (j : ℚ)) := by
  have h1 : p.hittingCost.intoI.callMean t x = p.hittingCost.callMean t (toFrac x) := by
    unfold CostFn.intoI
    rw [CostFn.callMean_certain _ t ht, CostFn.callCertain_eq, CostFn.callMean_eq]
    cases h : p.hittingCost.callPredictive t (toFrac x) with
    | error e => rfl
    | ok r =>
      have := hc _ _ h
      match r, this with
      | [c], _ => exact (Cost.mean_singleton c).symm
  show p.hittingCost.intoI.callMeanWithinBounds t x (withinVec (floorVec p.bounds)) =
    p.hittingCost.callMeanWithinBounds t (toFrac x) (withinVec p.bounds)
  unfold CostFn.callMeanWithinBounds
  rw [within_floor, h1]

theorem mem_timeRange {a b t : Int} (h : t ∈ timeRange a b) : a ≤ t ∧ t ≤ b := by
  unfold timeRange at h
  simp only [List.mem_map, List.mem_range] at h
  obtain ⟨i, hi, rfl⟩ := h
  omega

theorem movement_toFrac (sc : List ℚ) (x y : Config ℤ) (inv : Bool) :
    scaledMovement sc (toFrac x) (toFrac y) inv = scaledMovement sc x y inv := by
  have h1 : ∀ (x y : Config ℤ), movementVec (toFrac x) (toFrac y) inv = (movementVec x y inv).map toFrac := by
    intro x
    induction x with
    | nil => intro y; cases y <;> rfl
    | cons j x ih =>
      intro y
      cases y with
      | nil => rfl
      | cons k y =>
        have := ih y
        simp only [toFrac, List.map_cons, movementVec] at this ⊢
        rw [this]
        cases movementVec x y inv with
        | error e => rfl
        | ok r =>
          simp only [Except.map, bind, Except.bind, Except.ok.injEq]
          unfold scalarMovement
          simp only [pos_eq, toFrac, List.map_cons, List.cons.injEq, and_true]
          cases inv <;> simp
  have h2 : ∀ (sc : List ℚ) (x : Config ℤ), weightedSum sc (toFrac x) = weightedSum sc x := by
    intro sc x
    induction x generalizing sc with
    | nil => cases sc <;> rfl
    | cons j x ih =>
      cases sc with
      | nil => rfl
      | cons b sc =>
        have := ih sc
        simp only [toFrac, List.map_cons, weightedSum] at this ⊢
        rw [this]
        rfl
  unfold scaledMovement
  rw [h1]
  cases movementVec x y inv with
  | error e => rfl
  | ok r => exact h2 sc r

/-- **C09** (integral problem, objective). The cost of an integral schedule is the cost the fractional problem assigns to
it; for every weight of the movement, and also if movement down is charged. -/
theorem C09_discretised_objective (p : SSCO ℚ C D) (hc : ∀ t, 1 ≤ t → t ≤ p.tEnd → p.hittingCost.CertainAt t)
    (xs : Schedule ℤ) :
    p.intoI.toProb.objective xs = p.toProb.objective (xs.map fun x => x.map fun j : ℤ => (j : ℚ)) ∧
    p.intoI.toProb.invertedObjective xs = p.toProb.invertedObjective (xs.map fun x => x.map fun j : ℤ => (j : ℚ)) ∧
    ∀ alpha, p.intoI.toProb.alphaUnfairObjective xs alpha =
      p.toProb.alphaUnfairObjective (xs.map fun x => x.map fun j : ℤ => (j : ℚ)) alpha := by
  have key : ∀ alpha inv, p.intoI.toProb.objectiveWithDefault' xs p.intoI.toProb.defaultConfig alpha inv p.tEnd =
      p.toProb.objectiveWithDefault' (xs.map fun x => x.map fun j : ℤ => (j : ℚ)) p.toProb.defaultConfig alpha inv p.tEnd := by
    intro alpha inv
    have hd : p.toProb.defaultConfig = toFrac p.intoI.toProb.defaultConfig := by
      show List.replicate p.d.toNat (0 : ℚ) = toFrac (List.replicate p.d.toNat 0)
      simp [toFrac]
    have hget : ∀ t, (Schedule.get (xs.map fun x => x.map fun j : ℤ => (j : ℚ)) t).getD p.toProb.defaultConfig =
        toFrac ((Schedule.get xs t).getD p.intoI.toProb.defaultConfig) := by
      intro t
      rw [hd]
      unfold Schedule.get access
      rw [List.length_map]
      split
      · rw [List.getElem?_map]
        cases xs[(t - 1).toNat]? <;> rfl
      · rfl
    unfold Prob.objectiveWithDefault' sumOverSchedule
    congr 1
    apply mapM_congr'
    intro t ht
    have ht' : 1 ≤ t ∧ t ≤ p.tEnd := mem_timeRange ht
    rw [hget, hget]
    generalize (Schedule.get xs t).getD p.intoI.toProb.defaultConfig = x
    generalize (Schedule.get xs (t - 1)).getD p.intoI.toProb.defaultConfig = y
    unfold Prob.slotCost Prob.hitOrNone
    have e1 := C09_discretised_hit_cost p t ht'.1 (hc t ht'.1 ht'.2) x
    have e2 : p.toProb.movement (toFrac y) (toFrac x) inv = p.intoI.toProb.movement y x inv :=
      movement_toFrac p.switchingCost x y inv
    rw [e1, e2]
    rfl
  exact ⟨key 1 false, key 1 true, fun alpha => key alpha false⟩

end

/-- **C09** (rounding up). Rounding a schedule up gives in each place the least number of servers which is not below the
fractional one. -/
theorem C09_rounded_up (xs : Schedule ℚ) :
    List.Forall₂ (List.Forall₂ fun (q : ℚ) (j : ℤ) => q ≤ j ∧ (j : ℚ) < q + 1 ∧ ∀ i : ℤ, q ≤ i → j ≤ i) xs (Schedule.toI xs) := by
  unfold Schedule.toI
  rw [List.forall₂_map_right_iff, List.forall₂_same]
  intro x _
  unfold ceilVec
  rw [List.forall₂_map_right_iff, List.forall₂_same]
  intro q _
  exact ⟨Int.le_ceil q, Int.ceil_lt_add_one q, fun i hi => Int.ceil_le.2 hi⟩

/-- **C09** (rounding up). Integral schedules are not changed, and with integral bounds the rounded schedule respects them
if the schedule does. -/
theorem C09_rounded_up_integral (xs : Schedule ℤ) : Schedule.toI (Schedule.toF xs) = xs := by
  simp [Schedule.toI, Schedule.toF, ceilVec, toFrac, Function.comp_def]

theorem C09_rounded_up_bounds (bounds : List ℤ) (x : Config ℚ)
    (hx : Spec.InBox (bounds.map fun j : ℤ => (j : ℚ)) x) : ∀ y ∈ Schedule.toI [x], Spec.InBox bounds y := by
  intro y hy
  simp only [Schedule.toI, List.map_cons, List.map_nil, List.mem_singleton] at hy
  subst hy
  unfold Spec.InBox ceilVec at *
  rw [List.forall₂_map_left_iff] at hx
  rw [List.forall₂_map_right_iff]
  exact hx.imp fun u j h => ⟨Int.ceil_nonneg h.1, Int.ceil_le.2 h.2⟩

/-- Bounds that are not integral can be exceeded: 5/2 is a feasible number of servers, 3 is not. -/
theorem C09_rounded_up_counterexample : Spec.InBox [(5 / 2 : ℚ)] [5 / 2] ∧
    ∀ y ∈ Schedule.toI [[(5 / 2 : ℚ)]], ¬ Spec.InBox [(5 / 2 : ℚ)] (y.map fun j : ℤ => (j : ℚ)) := by
  refine ⟨.cons ⟨by norm_num, le_refl _⟩ .nil, ?_⟩
  intro y hy
  have h : ⌈(5 / 2 : ℚ)⌉ = 3 := by rw [Int.ceil_eq_iff]; norm_num
  simp only [Schedule.toI, ceilVec, List.map_cons, List.map_nil, List.mem_singleton, h] at hy
  subst hy
  intro hc
  simp only [List.map_cons, List.map_nil] at hc
  cases hc with
  | cons h _ => norm_num at h

/-! ## C15: failing samples -/

section
variable {C D : Type} [OutSuccess C]

theorem foldlM_failure (d : D) (os : List (ModelOutput C D)) : os.foldlM ModelOutput.vstep (.failure d) = .ok (.failure d) := by
  induction os with
  | nil => rfl
  | cons o os ih => rw [List.foldlM_cons]; exact ih

/-- **C15** (failures). The merged output of several samples is a failure exactly if some sample fails, and then it is
the first failure, provided that the successes before it can be merged. -/
theorem C15_first_failure (os rest : List (ModelOutput C D)) (d : D) (hne : ∀ o ∈ os, ∀ e, o ≠ .failure e)
    (hok : os ≠ [] → ∃ r, ModelOutput.verticalReduce os = .ok r) :
    ModelOutput.verticalReduce (os ++ .failure d :: rest) = .ok (.failure d) := by
  cases os with
  | nil => exact foldlM_failure d rest
  | cons o os =>
    obtain ⟨r, hr⟩ := hok (by simp)
    have hr' : os.foldlM ModelOutput.vstep o = .ok r := hr
    show (os ++ .failure d :: rest).foldlM ModelOutput.vstep o = _
    have hnf : ∀ (os : List (ModelOutput C D)) (o : ModelOutput C D), (∀ e, o ≠ .failure e) →
        (∀ o ∈ os, ∀ e, o ≠ .failure e) → ∀ r, os.foldlM ModelOutput.vstep o = .ok r → ∀ e, r ≠ .failure e := by
      intro os
      induction os with
      | nil => intro o ho _ r h; cases h; exact ho
      | cons a os ih =>
        intro o ho ha r h
        rw [List.foldlM_cons] at h
        cases hs : ModelOutput.vstep o a with
        | error e => rw [hs] at h; cases h
        | ok b =>
          rw [hs] at h
          refine ih b ?_ (fun o ho => ha o (by simp [ho])) r h
          have ha' := ha a (by simp)
          unfold ModelOutput.vstep at hs
          intro e he
          subst he
          cases o with
          | failure e' => exact absurd rfl (ho e')
          | success c =>
            cases a with
            | failure e' => exact absurd rfl (ha' e')
            | success c' =>
              simp only at hs
              cases hm : OutSuccess.vmerge c c' with
              | error x => rw [hm] at hs; cases hs
              | ok x => rw [hm] at hs; cases hs
            | none => cases hs
          | none =>
            simp only [Except.ok.injEq] at hs
            exact ha' e hs
    have hr2 := hnf os o (hne o (by simp)) (fun o ho => hne o (by simp [ho])) r hr'
    rw [List.foldlM_append, hr']
    show ((ModelOutput.failure d :: rest).foldlM ModelOutput.vstep r) = _
    rw [List.foldlM_cons]
    cases r with
    | failure e => exact absurd rfl (hr2 e)
    | success c => exact foldlM_failure d rest
    | none => exact foldlM_failure d rest

/-- Conversely a failure is one of the samples. -/
theorem C15_failure_source (os : List (ModelOutput C D)) (d : D) (h : ModelOutput.verticalReduce os = .ok (.failure d)) :
    .failure d ∈ os := by
  cases os with
  | nil => cases h
  | cons o os =>
    have h' : os.foldlM ModelOutput.vstep o = .ok (.failure d) := h
    clear h
    induction os generalizing o with
    | nil => cases h'; simp
    | cons a os ih =>
      rw [List.foldlM_cons] at h'
      cases hs : ModelOutput.vstep o a with
      | error e => rw [hs] at h'; cases h'
      | ok b =>
        rw [hs] at h'
        rcases List.mem_cons.1 (ih b h') with hb | hb
        · subst hb
          unfold ModelOutput.vstep at hs
          cases o with
          | failure e => simp only [Except.ok.injEq] at hs; rw [hs]; simp
          | success c =>
            cases a with
            | failure e => simp only [Except.ok.injEq] at hs; rw [hs]; simp
            | success c' =>
              simp only at hs
              cases hm : OutSuccess.vmerge c c' with
              | error x => rw [hm] at hs; cases hs
              | ok x => rw [hm] at hs; cases hs
            | none => cases hs
          | none => simp only [Except.ok.injEq] at hs; rw [hs]; simp
        · simp [hb]

end

/-- Non-vacuity: a success followed by a failure. -/
example : ModelOutput.verticalReduce [(.success () : ModelOutput Unit Unit), .failure (), .none] = .ok (.failure ()) :=
  C15_first_failure [.success ()] [.none] () (by simp) (fun _ => ⟨.success (), rfl⟩)

end Soco
