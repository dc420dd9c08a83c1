import Verif.Spec.CostFn
import Verif.Model.Convert
import Verif.Lemmas.Convex
import Verif.Props.Objective
import Verif.Props.CostFn

/-!
# C08 (reset) and C09 (discretisation and relaxation)
-/

namespace Soco

/-! ## C08 -/

section
variable {X C D : Type} [OutSuccess C] [OutFailure D]

theorem CostFn.callPredictive_neg (f : CostFn X C D) (t : Int) (ht : t < 1) (x : X) :
    f.callPredictive t x = .error .panic := by
  simp [CostFn.callPredictive, CostFn.get, assertP, not_le.2 ht, bind, Except.bind]

/-- **C08** (slots, exact, also for resets to times before the first slot). -/
theorem C08_reset_slot_any (f : CostFn X C D) (s t : Int) (hs : 1 ≤ t + s) (ht : 1 ≤ t) (x : X) :
    (f.reset s).callPredictive t x
      = match f.callPredictive (t + s) x with
        | .error e => .error e
        | .ok r => if t = 1 ∧ r.length ≠ 1 then .error .panic else .ok r := by
  have e : shiftTime t (s + 1) = t + s := by simp [shiftTime]; ring
  unfold CostFn.reset
  rw [CostFn.callPredictive, CostFn.get_new _ t ht]
  simp only [bind, Except.bind, SingleCostFn.callPredictive, assertP, ge_iff_le, ht, decide_true,
    if_true, e, show 1 ≤ t + s by omega]
  cases h : f.callPredictive (t + s) x with
  | error e => rfl
  | ok r =>
    have hne : r ≠ [] := by
      rintro rfl
      simp only [CostFn.callPredictive, bind, Except.bind] at h
      cases hg : f.get (t + s) with
      | error e => rw [hg] at h; simp at h
      | ok v =>
        rw [hg] at h
        simp only [SingleCostFn.callPredictive, bind, Except.bind] at h
        cases h1 : assertP (decide (t + s ≥ v.1)) with
        | error e => rw [h1] at h; simp at h
        | ok u =>
          rw [h1] at h
          simp only at h
          cases h2 : v.2 (t + s) x with
          | error e => rw [h2] at h; simp at h
          | ok r' =>
            rw [h2] at h
            simp only at h
            cases r' with
            | nil =>
              by_cases h3 : t + s = v.1 <;> simp [h3, assertP] at h
            | cons a r' =>
              by_cases h3 : t + s = v.1
              · by_cases h4 : r' = [] <;> simp [h3, h4, assertP] at h
              · simp [h3, assertP] at h
    have h2 : r.isEmpty = false := by cases r <;> simp at hne ⊢
    by_cases h1 : t = 1
    · by_cases h3 : r.length = 1 <;> simp [h1, h3, h2]
    · simp [h1, h2]

/-- **C08** (slots, exact). Slot `t ≥ 1` of the reset cost function returns the samples of slot
`t + s` of the original; only if `t = 1` and there are several samples it panics instead. -/
theorem C08_reset_slot_exact (f : CostFn X C D) (s t : Int) (hs : 0 ≤ s) (ht : 1 ≤ t) (x : X) :
    (f.reset s).callPredictive t x
      = match f.callPredictive (t + s) x with
        | .error e => .error e
        | .ok r => if t = 1 ∧ r.length ≠ 1 then .error .panic else .ok r :=
  C08_reset_slot_any f s t (by omega) ht x

/-- **C08** (before the first slot). Slots which a reset to a time before the first slot adds are free. -/
theorem C08_reset_before (f : CostFn X C D) (s t : Int) (hs : t + s < 1) (ht : 1 ≤ t) (x : X) :
    (f.reset s).callPredictive t x = .ok [Cost.dflt] := by
  have e : shiftTime t (s + 1) = t + s := by simp [shiftTime]; ring
  unfold CostFn.reset
  rw [CostFn.callPredictive, CostFn.get_new _ t ht]
  simp [bind, Except.bind, SingleCostFn.callPredictive, assertP, ht, e, not_le.2 hs]

/-- **C08** (slots). If the first remaining slot is certain, every evaluation of slot `t` of the reset
cost function is that of slot `t + s` of the original. -/
theorem C08_reset_slot (f : CostFn X C D) (s t : Int) (hs : 0 ≤ s) (ht : 1 ≤ t)
    (hc : f.CertainAt (1 + s)) (x : X) :
    (f.reset s).callPredictive t x = f.callPredictive (t + s) x ∧
    (f.reset s).callMean t x = f.callMean (t + s) x ∧
    (f.reset s).callCertain t x = f.callCertain (t + s) x := by
  have key : (f.reset s).callPredictive t x = f.callPredictive (t + s) x := by
    rw [C08_reset_slot_exact f s t hs ht x]
    cases h : f.callPredictive (t + s) x with
    | error e => rfl
    | ok r =>
      by_cases h1 : t = 1
      · subst h1
        have := hc x r h
        simp [this]
      · simp [h1]
  exact ⟨key, by rw [CostFn.callMean_eq, CostFn.callMean_eq, key],
    by rw [CostFn.callCertain_eq, CostFn.callCertain_eq, key]⟩

/-- The condition on the first remaining slot is needed: resetting into a predicted slot panics. -/
theorem C08_reset_predicted_counterexample (c : Cost C D) :
    ∃ f : CostFn X C D, ∀ x : X, f.callPredictive 2 x = .ok [c, c] ∧
      (f.reset 1).callPredictive 1 x = .error .panic := by
  refine ⟨CostFn.new 1 fun t _ => if t = 1 then .ok [c] else .ok [c, c], fun x => ?_⟩
  have h : (CostFn.new 1 (fun t (_ : X) => if t = 1 then .ok [c] else .ok [c, c])
      : CostFn X C D).callPredictive 2 x = .ok [c, c] := by
    simp [CostFn.callPredictive, CostFn.get_new _ 2, bind, Except.bind, SingleCostFn.callPredictive,
      assertP]
  refine ⟨h, ?_⟩
  rw [C08_reset_slot_exact _ 1 1 (by omega) (by omega) x]
  have e : (1 : Int) + 1 = 2 := rfl
  rw [e, h]; simp

/-- **C08** (identity). Resetting by zero changes no evaluation, of any slot. -/
theorem C08_reset_zero (f : CostFn X C D) (t : Int) (x : X) :
    (f.reset 0).callPredictive t x = f.callPredictive t x := by
  by_cases ht : 1 ≤ t
  · refine (add_zero t ▸ C08_reset_slot f 0 t le_rfl ht ?_ x).1
    intro x r h
    simp only [CostFn.callPredictive, bind, Except.bind, add_zero] at h
    cases hg : f.get 1 with
    | error e => rw [hg] at h; simp at h
    | ok v =>
      rw [hg] at h
      have hv : v.1 = 1 := by
        simp only [CostFn.get, assertP, ge_iff_le, le_refl, decide_true, if_true, bind,
          Except.bind] at hg
        cases hl : (f.filter fun e => decide (1 ≤ e.1) && decide (e.1 ≤ 1)).getLast? with
        | none => rw [hl] at hg; simp at hg
        | some w =>
          rw [hl] at hg
          have hm := List.mem_of_getLast? hl
          rw [List.mem_filter] at hm
          simp only [Except.ok.injEq] at hg
          simp only [Bool.and_eq_true, decide_eq_true_eq] at hm
          rw [← hg]; omega
      simp only [SingleCostFn.callPredictive, bind, Except.bind, hv] at h
      cases h1 : v.2 1 x with
      | error e => rw [h1] at h; simp [assertP] at h
      | ok r' =>
        rw [h1] at h
        by_cases h3 : r'.length = 1
        · have hne : r'.isEmpty = false := by cases r' <;> simp at h3 ⊢
          simp [assertP, h3, hne] at h
          rw [← h]; exact h3
        · simp [assertP, h3] at h
  · rw [CostFn.callPredictive_neg _ _ (by omega), CostFn.callPredictive_neg _ _ (by omega)]

/-- **C08** (composition). Resetting by `a` and then by `b` is resetting by `a + b`. -/
theorem C08_reset_reset (f : CostFn X C D) (a b t : Int) (ha : 0 ≤ a) (hb : 0 ≤ b) (x : X) :
    ((f.reset a).reset b).callPredictive t x = (f.reset (a + b)).callPredictive t x := by
  by_cases ht : 1 ≤ t
  · rw [C08_reset_slot_exact _ b t hb ht, C08_reset_slot_exact _ a (t + b) ha (by omega),
      C08_reset_slot_exact _ (a + b) t (by omega) ht]
    have e : t + b + a = t + (a + b) := by ring
    rw [e]
    cases h : f.callPredictive (t + (a + b)) x with
    | error e => rfl
    | ok r =>
      by_cases h1 : t + b = 1
      · have : t = 1 := by omega
        by_cases h2 : r.length = 1 <;> simp [this, h2]
        have : b = 0 := by omega
        simp [this]
      · by_cases h2 : r.length = 1 <;> simp [h1, h2]
  · rw [CostFn.callPredictive_neg _ _ (by omega), CostFn.callPredictive_neg _ _ (by omega)]

end

section
variable {T C D : Type} [Value T] [OutSuccess C] [OutFailure D]

theorem slotTerms_congr_ge {Y β : Type} {f g : Int → Y → Y → Res β} (dflt : Y)
    (h : ∀ t, 1 ≤ t → ∀ y x, f t y x = g t y x) (n : Nat) :
    ∀ (t : Int), 1 ≤ t → ∀ (prev : Y) (xs : List Y),
    slotTerms f dflt n t prev xs = slotTerms g dflt n t prev xs := by
  induction n with
  | zero => intros; rfl
  | succ n ih =>
    intro t ht prev xs
    rw [slotTerms, slotTerms, h t ht, ih (t + 1) (by omega)]

/-- **C08** (problems). Horizon, dimension, bounds and switching cost of the reset problem. -/
theorem C08_reset_shape (p : SSCO T C D) (s : Int) :
    (p.reset s).tEnd = p.tEnd - s ∧ (p.reset s).d = p.d ∧ (p.reset s).bounds = p.bounds ∧
    (p.reset s).switchingCost = p.switchingCost := ⟨rfl, rfl, rfl, rfl⟩

/-- **C08** (objective). For every `s`, the objective of a schedule is the objective of its first `s`
configurations plus the objective of the reset problem on the reset schedule, started from the
configuration of slot `s`; failures are preserved. -/
theorem C08_reset_objective (p : SSCO T C D) (xs : Schedule T) (dflt : Config T) (α : ℚ) (inv : Bool)
    (s : Nat) (hs : s ≤ xs.length) (hc : p.hittingCost.CertainAt (1 + s)) :
    (p.toProb.objectiveWithDefault' xs dflt α inv xs.length).map (·.cost)
      = (do
        let a ← p.toProb.objectiveWithDefault' (xs.take s) dflt α inv s
        let b ← (p.reset s).toProb.objectiveWithDefault' (Schedule.reset xs s)
          ((xs.take s).getLastD dflt) α inv (xs.length - s : Nat)
        .ok (a.cost + b.cost)) := by
  rw [C02_objective_splits p.toProb xs dflt α inv s hs]
  have key : (Spec.remaining p.toProb s).objectiveWithDefault' (xs.drop s)
      ((xs.take s).getLastD dflt) α inv (xs.length - s : Nat)
      = (p.reset s).toProb.objectiveWithDefault' (Schedule.reset xs s)
          ((xs.take s).getLastD dflt) α inv (xs.length - s : Nat) := by
    unfold Prob.objectiveWithDefault' Schedule.reset Schedule.skip
    rw [sumOverSchedule_eq, sumOverSchedule_eq]
    congr 1
    apply slotTerms_congr_ge _ _ _ 1 le_rfl
    intro t ht y x
    have h1 := (C08_reset_slot p.hittingCost s t (by omega) ht hc x).2.1
    have e : (Spec.remaining p.toProb s).hitOrNone t x = (p.reset s).toProb.hitOrNone t x := by
      simp only [Prob.hitOrNone, Spec.remaining, SSCO.toProb, SSCO.reset,
        CostFn.callMeanWithinBounds, h1]
      rfl
    simp only [Prob.slotCost, e]
    rfl
  rw [key]

/-- The hypotheses hold for `ssco2` at every slot. -/
example (s : Nat) (hs : s ≤ Ex.xs2.length) := C08_reset_objective Ex.ssco2 Ex.xs2 [0, 0] 1 false s hs
  (by
    intro x r h
    rw [Ex.ssco2, CostFn.callPredictive_certain _ _ (by omega)] at h
    simp only [Except.map, Except.ok.injEq] at h
    rw [← h]; rfl)

end

/-! ## C09 -/

section
variable {C D : Type} [OutSuccess C] [OutFailure D]

/-- **C09** (integral points). The relaxed cost at an integral point is the original cost. -/
theorem C09_relaxed_at_integer (f : CostFn (Config ℤ) C D) (t : Int) (ht : 1 ≤ t) (z : ℤ) :
    f.intoF.callCertain t [(z : ℚ)] = f.callCertain t [z] ∧
    f.intoF.callMean t [(z : ℚ)] = f.callCertain t [z] := by
  unfold CostFn.intoF
  rw [CostFn.callCertain_certain _ t ht, CostFn.callMean_certain _ t ht]
  simp [frac]

/-- **C09** (between integers). Between two neighbouring integers the relaxed cost is the linear
interpolation `(1 - θ) * lower + θ * upper`, infinite if one neighbour's cost is. -/
theorem C09_relaxed_between (f : CostFn (Config ℤ) C D) (t : Int) (ht : 1 ≤ t) (z : ℤ) (θ : ℚ)
    (h0 : 0 < θ) (h1 : θ < 1) (lo hi : Cost C D) (o : ModelOutput C D)
    (hlo : f.callCertain t [z] = .ok lo) (hhi : f.callCertain t [z + 1] = .ok hi)
    (ho : ModelOutput.verticalReduce [lo.output, hi.output] = .ok o) :
    ∃ c, f.intoF.callMean t [(z : ℚ) + θ] = .ok ⟨c, o⟩ ∧
      (∀ a b : ℚ, lo.cost = a → hi.cost = b → c = (((1 - θ) * a + θ * b : ℚ) : ECost)) ∧
      (lo.cost = ⊤ ∨ hi.cost = ⊤ → c = ⊤) ∧
      min lo.cost hi.cost ≤ c ∧ c ≤ max lo.cost hi.cost := by
  have hfl : ⌊(z : ℚ) + θ⌋ = z := by
    rw [Int.floor_eq_iff]; constructor <;> linarith
  have hce : ⌈(z : ℚ) + θ⌉ = z + 1 := by
    rw [Int.ceil_eq_iff]; push_cast; constructor <;> linarith
  refine ⟨ECost.mulQ (1 - θ) lo.cost + ECost.mulQ θ hi.cost, ?_, ?_, ?_, ?_, ?_⟩
  · unfold CostFn.intoF
    rw [CostFn.callMean_certain _ t ht]
    have hf : frac ((z : ℚ) + θ) ≠ 0 := by unfold frac; rw [hfl]; simp; exact h0.ne'
    simp only [hf, if_false, hfl, hce, hlo, hhi, ho, bind, Except.bind]
    congr 3
    · congr 1; push_cast; ring
    · congr 1; ring
  · intro a b ha hb; rw [ha, hb]; simp [ECost.mulQ]
  · rintro (h | h) <;> rw [h] <;> simp [ECost.mulQ]
  · cases ha : lo.cost using WithTop.recTopCoe with
    | top => simp [ECost.mulQ]
    | coe a =>
      cases hb : hi.cost using WithTop.recTopCoe with
      | top => simp [ECost.mulQ]
      | coe b =>
        simp only [ECost.mulQ, WithTop.map_coe, ← WithTop.coe_add, ← WithTop.coe_min,
          WithTop.coe_le_coe]
        rcases le_total a b with h | h
        · rw [min_eq_left h]; nlinarith
        · rw [min_eq_right h]; nlinarith
  · cases ha : lo.cost using WithTop.recTopCoe with
    | top => simp
    | coe a =>
      cases hb : hi.cost using WithTop.recTopCoe with
      | top => simp
      | coe b =>
        simp only [ECost.mulQ, WithTop.map_coe, ← WithTop.coe_add, ← WithTop.coe_max,
          WithTop.coe_le_coe]
        rcases le_total a b with h | h
        · rw [max_eq_right h]; nlinarith
        · rw [max_eq_left h]; nlinarith

/-- **C09** (round trip). Discretising the relaxation gives back the cost function and, for bounds and
shape, the problem. -/
theorem C09_discretised_relaxation (p : SSCO ℤ C D) (t : Int) (ht : 1 ≤ t) (z : ℤ) :
    p.intoF.intoI.hittingCost.callMean t [z] = p.hittingCost.callCertain t [z] ∧
    p.intoF.intoI.bounds = p.bounds ∧ p.intoF.intoI.d = p.d ∧ p.intoF.intoI.tEnd = p.tEnd ∧
    p.intoF.intoI.switchingCost = p.switchingCost := by
  refine ⟨?_, ?_, rfl, rfl, rfl⟩
  · simp only [SSCO.intoI, SSCO.intoF, CostFn.intoI]
    rw [CostFn.callMean_certain _ t ht]
    exact (C09_relaxed_at_integer p.hittingCost t ht z).1
  · simp [SSCO.intoI, SSCO.intoF, floorVec, toFrac, Function.comp_def]

/-- **C09** (problems). The relaxed problem charges at an integral point what the original charges,
inside and outside of the bounds. -/
theorem C09_relaxed_hit_cost (p : SSCO ℤ C D) (m : ℤ) (hb : p.bounds = [m]) (t : Int) (ht : 1 ≤ t)
    (hc : p.hittingCost.CertainAt t) (z : ℤ) :
    p.intoF.toProb.hitCost t [(z : ℚ)] = p.toProb.hitCost t [z] := by
  have hw : withinVec p.intoF.bounds [(z : ℚ)] = withinVec p.bounds [z] := by
    simp [withinVec, SSCO.intoF, hb, toFrac]
  have h1 : p.intoF.hittingCost.callMean t [(z : ℚ)] = p.hittingCost.callMean t [z] := by
    have h2 := (C09_relaxed_at_integer p.hittingCost t ht z).2
    change p.hittingCost.intoF.callMean t _ = _
    rw [h2, CostFn.callCertain_eq, CostFn.callMean_eq]
    cases h : p.hittingCost.callPredictive t [z] with
    | error e => rfl
    | ok r =>
      have := hc _ _ h
      match r, this with
      | [c], _ => exact (Cost.mean_singleton c).symm
  simp only [SSCO.toProb, CostFn.callMeanWithinBounds, hw, h1]

/-- **C09** (convexity). If the integral cost is finite and convex on `0..m`, the relaxed cost is
convex on the whole interval `[0, m]`, and never below the best integral cost. -/
theorem C09_relaxed_convex (f : CostFn (Config ℤ) C D) (t : Int) (ht : 1 ≤ t) (m : ℤ) (g : ℤ → ℚ)
    (out : ℤ → ModelOutput C D)
    (hf : ∀ z, 0 ≤ z → z ≤ m → f.callCertain t [z] = .ok ⟨(g z : ℚ), out z⟩)
    (ho : ∀ z, 0 ≤ z → z < m → ∃ o, ModelOutput.verticalReduce [out z, out (z + 1)] = .ok o)
    (hconv : Spec.ConvexOn m g) :
    ∃ relaxed : ℚ → ℚ,
      (∀ x : ℚ, 0 ≤ x → x ≤ m →
        (f.intoF.callMean t [x]).map (·.cost) = .ok ((relaxed x : ℚ) : ECost)) ∧
      Spec.ConvexOnQ m relaxed ∧
      ∀ best : ℚ, (∀ z, 0 ≤ z → z ≤ m → best ≤ g z) → ∀ x : ℚ, 0 ≤ x → x ≤ m → best ≤ relaxed x := by
  refine ⟨interp g, ?_, interp_convex hconv, ?_⟩
  · intro x hx hx'
    have h1 : 0 ≤ ⌊x⌋ := Int.floor_nonneg.2 hx
    have h2 : (⌊x⌋ : ℚ) ≤ x := Int.floor_le x
    have h3 : x < ⌊x⌋ + 1 := Int.lt_floor_add_one x
    have hm : ⌊x⌋ ≤ m := by
      have : (⌊x⌋ : ℚ) ≤ m := le_trans h2 hx'
      exact_mod_cast this
    by_cases hint : x = ⌊x⌋
    · have key := (C09_relaxed_at_integer f t ht ⌊x⌋).2
      rw [← hint, hf _ h1 hm] at key
      rw [key]
      unfold interp
      have : x - ⌊x⌋ = 0 := by linarith
      simp [this, Except.map]
    · have hlt : (⌊x⌋ : ℚ) < x := lt_of_le_of_ne h2 (Ne.symm hint)
      have hm' : ⌊x⌋ < m := by
        have : (⌊x⌋ : ℚ) < m := lt_of_lt_of_le hlt hx'
        exact_mod_cast this
      obtain ⟨o, hoo⟩ := ho ⌊x⌋ h1 hm'
      obtain ⟨c, hc, hfin, _⟩ := C09_relaxed_between f t ht ⌊x⌋ (x - ⌊x⌋) (by linarith) (by linarith)
        _ _ o (hf _ h1 hm) (hf _ (by omega) (by omega)) hoo
      have e : (⌊x⌋ : ℚ) + (x - ⌊x⌋) = x := by ring
      rw [e] at hc
      rw [hc, hfin _ _ rfl rfl]
      simp only [Except.map, Except.ok.injEq, WithTop.coe_inj, interp]
      ring
  · intro best hb x hx hx'
    have h1 : 0 ≤ ⌊x⌋ := Int.floor_nonneg.2 hx
    have h2 : (⌊x⌋ : ℚ) ≤ x := Int.floor_le x
    have h3 : x < ⌊x⌋ + 1 := Int.lt_floor_add_one x
    have hm : ⌊x⌋ ≤ m := by
      have : (⌊x⌋ : ℚ) ≤ m := le_trans h2 hx'
      exact_mod_cast this
    have b1 := hb ⌊x⌋ h1 hm
    unfold interp
    by_cases hm' : ⌊x⌋ + 1 ≤ m
    · have b2 := hb (⌊x⌋ + 1) (by omega) hm'
      nlinarith
    · have : x = ⌊x⌋ := by
        have h5 : m ≤ ⌊x⌋ := by omega
        have : (m : ℚ) ≤ ⌊x⌋ := by exact_mod_cast h5
        linarith
      have : x - ⌊x⌋ = 0 := by linarith
      rw [this]; linarith

/-- The hypotheses hold for `ssco1`, whose costs `|x - t|` are convex on `0..5`. -/
example (t : Int) (ht : 1 ≤ t) := C09_relaxed_convex Ex.ssco1.hittingCost t ht 5
  (fun z => ((|z - t| : ℤ) : ℚ)) (fun _ => .success ())
  (fun z _ _ => by rw [Ex.ssco1, CostFn.callCertain_certain _ t ht]; rfl)
  (fun z _ _ => ⟨.success (), rfl⟩)
  (by
    intro z _ _
    have : 2 * |z - t| ≤ |z - 1 - t| + |z + 1 - t| := by
      have := abs_add_le (z - 1 - t) (z + 1 - t)
      have e : z - 1 - t + (z + 1 - t) = 2 * (z - t) := by ring
      rw [e, abs_mul] at this
      simpa using this
    simp only
    exact_mod_cast this)

end

end Soco
