import Verif.Props.Balanced
import Verif.Props.DataCenter
import Verif.Props.SloSblo

/-!
# C41, C43, C54, C57: predicted loads and online updates of data center instances
-/

namespace Soco

/-! ## C41 -/

/-- A way of choosing values at random: `n` of the given values, each at most as often as given. -/
def ChoosesFrom (choose : Nat → List ℚ → Nat → List ℚ) : Prop :=
  ∀ i zs n, n ≤ zs.length → (choose i zs n).length = n ∧ (choose i zs n).Subperm zs

theorem mapM_error_of {ε α β : Type} {f : α → Except ε β} {xs : List α} {x : α} (hx : x ∈ xs) {e : ε}
    (h : f x = .error e) (he : ∀ y ∈ xs, ∀ e', f y = .error e' → e' = e) : xs.mapM f = .error e := by
  induction xs with
  | nil => simp at hx
  | cons a xs ih =>
    rw [List.mapM_cons]
    cases ha : f a with
    | error e' => rw [he a (by simp) e' ha]; rfl
    | ok b =>
      rcases List.mem_cons.1 hx with rfl | hx
      · rw [ha] at h; cases h
      · rw [ih hx fun y hy => he y (by simp [hy])]; rfl

theorem zip_range_mem {α : Type} (p : List α) (i : Nat) (a : α) (h : (i, a) ∈ (List.range p.length).zip p) : a ∈ p :=
  (List.of_mem_zip h).2

theorem forall₂_zip_range {α β : Type} (p : List α) (ys : List β) (R : Nat × α → β → Prop) (Q : α → β → Prop)
    (h : List.Forall₂ R ((List.range p.length).zip p) ys) (hR : ∀ i a b, a ∈ p → R (i, a) b → Q a b) :
    List.Forall₂ Q p ys := by
  rw [List.forall₂_iff_get] at h ⊢
  obtain ⟨h1, h2⟩ := h
  have hl : p.length = ys.length := by simpa using h1
  refine ⟨hl, fun i hi hi' => ?_⟩
  have := h2 i (by simpa using hi) hi'
  simp only [List.get_eq_getElem, List.getElem_zip] at this
  exact hR _ _ _ (List.getElem_mem hi) this

/-- **C41** (partial) Sampling aborts unless there is a job type and all types have the same number of predicted values
or at least 100 of them. Otherwise the result has one vector per job type (in place of one per sample), with as many
values as samples, all predicted for this type. -/
theorem C41_sampling_partial (choose : Nat → List ℚ → Nat → List ℚ) (hch : ChoosesFrom choose)
    (p : PredictedLoadProfile) :
    (p ≠ [] ∧ ((∀ a ∈ p, ∀ b ∈ p, a.length = b.length) ∨ ∀ a ∈ p, 100 ≤ a.length) →
      ∃ profiles, sampleLoadProfiles choose p = .ok profiles ∧ profiles.length = p.length ∧
        ∃ n, List.Forall₂ (fun zs (l : LoadProfile) => l.length = n ∧ l.Subperm zs) p profiles ∧
          (∃ a ∈ p, a.length ≤ n) ∧ (∃ b ∈ p, n ≤ b.length)) ∧
    (¬ (p ≠ [] ∧ ((∀ a ∈ p, ∀ b ∈ p, a.length = b.length) ∨ ∀ a ∈ p, 100 ≤ a.length)) →
      sampleLoadProfiles choose p = .error .panic) := by
  by_cases hp : p = []
  · subst hp
    constructor
    · rintro ⟨h, _⟩; exact absurd rfl h
    · intro _; rfl
  · have hs : p.map List.length ≠ [] := by simpa using hp
    obtain ⟨lo, hlo⟩ : ∃ lo, (p.map List.length).min? = some lo := by
      cases h : (p.map List.length).min? with
      | none => exact absurd (List.min?_eq_none_iff.1 h) hs
      | some lo => exact ⟨lo, rfl⟩
    obtain ⟨hi, hhi⟩ : ∃ hi, (p.map List.length).max? = some hi := by
      cases h : (p.map List.length).max? with
      | none => exact absurd (List.max?_eq_none_iff.1 h) hs
      | some hi => exact ⟨hi, rfl⟩
    have e : sampleLoadProfiles choose p = ((List.range p.length).zip p).mapM fun q : Nat × List ℚ => (do
        assertP (decide (q.2.length ≥ min (max lo maxSampleSize) hi))
        .ok (choose q.1 q.2 (min (max lo maxSampleSize) hi)) : Res (List ℚ)) := by
      unfold sampleLoadProfiles
      simp only [hlo, hhi]
    obtain ⟨h1, h2⟩ := List.min?_eq_some_iff.1 hlo
    obtain ⟨h3, h4⟩ := List.max?_eq_some_iff.1 hhi
    obtain ⟨a, ha, ha'⟩ := List.mem_map.1 h1
    obtain ⟨b, hb, hb'⟩ := List.mem_map.1 h3
    have hlow : ∀ c ∈ p, lo ≤ c.length := fun c hc => h2 _ (List.mem_map_of_mem hc)
    have hup : ∀ c ∈ p, c.length ≤ hi := fun c hc => h4 _ (List.mem_map_of_mem hc)
    have hm : maxSampleSize = 100 := rfl
    generalize hn : min (max lo maxSampleSize) hi = n at e
    constructor
    · rintro ⟨_, hcase⟩
      have hall : ∀ c ∈ p, n ≤ c.length := by
        intro c hc
        rcases hcase with h | h
        · have := h c hc b hb
          omega
        · have := h a ha
          have := hlow c hc
          omega
      have hok : sampleLoadProfiles choose p =
          .ok (((List.range p.length).zip p).map fun q => choose q.1 q.2 n) := by
        rw [e]
        apply mapM_ok_of
        rintro ⟨i, zs⟩ hq
        have : n ≤ zs.length := hall zs (zip_range_mem p i zs hq)
        simp [assertP, bind, Except.bind, this]
      refine ⟨_, hok, by simp, n, ?_, ⟨a, ha, ?_⟩, ⟨b, hb, ?_⟩⟩
      · apply forall₂_zip_range p _ (fun q l => l = choose q.1 q.2 n)
        · exact List.forall₂_map_right_iff.2 (List.forall₂_same.2 fun q _ => rfl)
        · rintro i zs l hzs rfl
          exact hch i zs n (hall zs hzs)
      · have := hup a ha
        omega
      · omega
    · intro hcase
      have hlt : a.length < n := by
        by_contra hge
        apply hcase
        refine ⟨hp, ?_⟩
        by_cases h100 : 100 ≤ lo
        · right; intro c hc; have := hlow c hc; omega
        · left
          intro c hc c' hc'
          have := hlow c hc; have := hlow c' hc'; have := hup c hc; have := hup c' hc'
          omega
      obtain ⟨i, hi', rfl⟩ := List.getElem_of_mem ha
      rw [e]
      refine mapM_error_of (x := (i, p[i])) ?_ (e := Fault.panic) ?_ ?_
      · rw [List.mem_iff_getElem]
        exact ⟨i, by simpa using hi', by simp⟩
      · have : ¬ n ≤ p[i].length := by omega
        simp [assertP, bind, Except.bind, this]
      · rintro ⟨j, zs⟩ _ e' he'
        by_cases h : n ≤ zs.length
        · simp [assertP, bind, Except.bind, h] at he'
        · simp [assertP, bind, Except.bind, h] at he'
          exact he'.symm

/-- Choosing the first values. -/
def chooseFirst : Nat → List ℚ → Nat → List ℚ := fun _ zs n => zs.take n

theorem chooseFirst_ok : ChoosesFrom chooseFirst := by
  intro i zs n h
  exact ⟨by simpa [chooseFirst] using h, (List.take_sublist n zs).subperm⟩

/-- Three values for one type yield one profile with three values. Two values for the first and one for the second type
abort. Two types with one value each yield two profiles with one value, where one profile with both was predicted. -/
theorem C41_transposed_counterexample (choose : Nat → List ℚ → Nat → List ℚ) (hch : ChoosesFrom choose) :
    (∀ ps, sampleLoadProfiles choose [[1, 2, 3]] = .ok ps → ¬ ∃ n, Spec.SampledFrom [[1, 2, 3]] n ps) ∧
    sampleLoadProfiles choose [[1, 2], [3]] = .error .panic ∧
    (∀ ps, sampleLoadProfiles choose [[1], [3]] = .ok ps → ¬ ∃ n, Spec.SampledFrom [[1], [3]] n ps) := by
  refine ⟨?_, ?_, ?_⟩
  · intro ps hps
    have h := (C41_sampling_partial choose hch [[1, 2, 3]]).1 ⟨by simp, .inl (by simp)⟩
    obtain ⟨ps', h1, h2, n, h3, ⟨a, ha, h4⟩, h5⟩ := h
    rw [hps] at h1; cases h1
    rintro ⟨m, h6, h7⟩
    simp only [List.mem_singleton] at ha
    subst ha
    cases h3 with
    | @cons _ l _ _ h8 h9 =>
      have := (h7 l (by simp)).length_eq
      simp at h4 this
      omega
  · refine (C41_sampling_partial choose hch [[1, 2], [3]]).2 ?_
    rintro ⟨_, h | h⟩
    · have := h [1, 2] (by simp) [3] (by simp); simp at this
    · have := h [3] (by simp); simp at this
  · intro ps hps
    have h := (C41_sampling_partial choose hch [[1], [3]]).1 ⟨by simp, .inl (by simp)⟩
    obtain ⟨ps', h1, h2, n, h3, h4, ⟨b, hb, h5⟩⟩ := h
    rw [hps] at h1; cases h1
    rintro ⟨m, h6, h7⟩
    have hb1 : b.length = 1 := by
      simp only [List.mem_cons, List.not_mem_nil, or_false] at hb
      rcases hb with rfl | rfl <;> rfl
    cases h3 with
    | @cons _ l _ _ h8 h9 =>
      have := (h7 l (by simp)).length_eq
      simp at this
      omega

example : sampleLoadProfiles chooseFirst [[1, 2, 3]] = .ok [[1, 2, 3]] ∧
    sampleLoadProfiles chooseFirst [[7]] = .ok [[7]] := ⟨rfl, rfl⟩

/-- **C41** (partial) A certain prediction of a single type is sampled as the certain load profile. -/
theorem C41_certain_partial (choose : Nat → List ℚ → Nat → List ℚ) (hch : ChoosesFrom choose) (z : ℚ) :
    sampleLoadProfiles choose [[z]] = .ok [[z]] ∧ Spec.SampledFrom [[z]] 1 [[z]] := by
  have h := (hch 0 [z] 1 (by simp))
  have h2 : choose 0 [z] 1 = [z] := List.perm_singleton.1 (h.2.perm_of_length_le (by simp [h.1]))
  refine ⟨?_, rfl, ?_⟩
  · show Except.ok [choose 0 [z] 1] = _
    rw [h2]
  · intro l hl
    rw [List.mem_singleton] at hl
    subst hl
    exact .cons (by simp) .nil

/-! ## C43 -/

section
variable {T : Type} [Value T]

/-- **C43** Updates of simplified smoothed convex optimisation succeed exactly with information for the current slot and
the whole prediction window. They add one slot, keep everything else, and do not change earlier costs. -/
theorem C43_update_ssco (S : Num.Solver) (choose : Nat → List ℚ → Nat → List ℚ) (m : DataCenterModel)
    (o : Online (SSCO T DCSuccess DCFailure)) (loads : List PredictedLoadProfile)
    (history : List (Int × SingleCostFn (Config T) DCSuccess DCFailure))
    (hh : o.p.hittingCost = CostFn.build history) :
    ((loads.length : Int) ≤ o.w → m.updateSSCO S choose o loads = .error .panic) ∧
    (o.w < loads.length → ∃ o', m.updateSSCO S choose o loads = .ok o' ∧
      o'.w = o.w ∧ o'.p.d = o.p.d ∧ o'.p.bounds = o.p.bounds ∧ o'.p.switchingCost = o.p.switchingCost ∧
      o'.p.tEnd = o.p.tEnd + 1 ∧
      (∀ t x, t ≤ o.p.tEnd → o'.p.hittingCost.callMean t x = o.p.hittingCost.callMean t x ∧
        o'.p.hittingCost.callCertain t x = o.p.hittingCost.callCertain t x ∧
        o'.p.hittingCost.callPredictive t x = o.p.hittingCost.callPredictive t x ∧
        o'.p.toProb.hitCost t x = o.p.toProb.hitCost t x) ∧
      o'.p.hittingCost = CostFn.build (history ++
        [(o.p.tEnd + 1, applyPredictedLoads S choose m.d m.e m.objective loads (o.p.tEnd + 1))])) := by
  unfold DataCenterModel.updateSSCO DataCenterModel.verifyUpdate
  constructor
  · intro h
    have : ¬ (loads.length : Int) > o.w := by omega
    simp only [this, decide_false, assertP, bind, Except.bind]
    rfl
  · intro h
    have h' : (loads.length : Int) > o.w := by omega
    refine ⟨{ o with p := { o.p with
        tEnd := o.p.tEnd + 1
        hittingCost := o.p.hittingCost.add (o.p.tEnd + 1)
          (applyPredictedLoads S choose m.d m.e m.objective loads (o.p.tEnd + 1)) } },
      by simp only [h', decide_true, assertP, bind, Except.bind, if_true],
      rfl, rfl, rfl, rfl, rfl, ?_, ?_⟩
    · intro t x ht
      have hp := C05_past_unchanged history (o.p.tEnd + 1) t (by omega)
        (applyPredictedLoads S choose m.d m.e m.objective loads (o.p.tEnd + 1)) x
      rw [← hh] at hp
      refine ⟨hp.1, hp.2.1, hp.2.2, ?_⟩
      simp only [SSCO.toProb, CostFn.callMeanWithinBounds, hp.1]
    · simp only [hh, CostFn.build_append]

/-- **C43** The same for smoothed convex optimisation. -/
theorem C43_update_sco (S : Num.Solver) (choose : Nat → List ℚ → Nat → List ℚ) (m : DataCenterModel)
    (o : Online (SCO T DCSuccess DCFailure)) (loads : List PredictedLoadProfile)
    (history : List (Int × SingleCostFn (Config T) DCSuccess DCFailure))
    (hh : o.p.hittingCost = CostFn.build history) :
    ((loads.length : Int) ≤ o.w → m.updateSCO S choose o loads = .error .panic) ∧
    (o.w < loads.length → ∃ o', m.updateSCO S choose o loads = .ok o' ∧
      o'.w = o.w ∧ o'.p.d = o.p.d ∧ o'.p.bounds = o.p.bounds ∧ o'.p.switchingCost = o.p.switchingCost ∧
      o'.p.tEnd = o.p.tEnd + 1 ∧
      (∀ t x, t ≤ o.p.tEnd → o'.p.hittingCost.callMean t x = o.p.hittingCost.callMean t x ∧
        o'.p.hittingCost.callCertain t x = o.p.hittingCost.callCertain t x ∧
        o'.p.hittingCost.callPredictive t x = o.p.hittingCost.callPredictive t x ∧
        o'.p.toProb.hitCost t x = o.p.toProb.hitCost t x) ∧
      o'.p.hittingCost = CostFn.build (history ++
        [(o.p.tEnd + 1, applyPredictedLoads S choose m.d m.e m.objective loads (o.p.tEnd + 1))])) := by
  unfold DataCenterModel.updateSCO DataCenterModel.verifyUpdate
  constructor
  · intro h
    have : ¬ (loads.length : Int) > o.w := by omega
    simp only [this, decide_false, assertP, bind, Except.bind]
    rfl
  · intro h
    have h' : (loads.length : Int) > o.w := by omega
    refine ⟨{ o with p := { o.p with
        tEnd := o.p.tEnd + 1
        hittingCost := o.p.hittingCost.add (o.p.tEnd + 1)
          (applyPredictedLoads S choose m.d m.e m.objective loads (o.p.tEnd + 1)) } },
      by simp only [h', decide_true, assertP, bind, Except.bind, if_true],
      rfl, rfl, rfl, rfl, rfl, ?_, ?_⟩
    · intro t x ht
      have hp := C05_past_unchanged history (o.p.tEnd + 1) t (by omega)
        (applyPredictedLoads S choose m.d m.e m.objective loads (o.p.tEnd + 1)) x
      rw [← hh] at hp
      refine ⟨hp.1, hp.2.1, hp.2.2, ?_⟩
      simp only [SCO.toProb, CostFn.callMeanWithinBounds, hp.1]
    · simp only [hh, CostFn.build_append]

/-- **C43** A whole history of updates adds as many slots as there are updates and does not change the costs of the slots
that were present before. -/
theorem C43_history_ssco (S : Num.Solver) (choose : Nat → List ℚ → Nat → List ℚ) (m : DataCenterModel)
    (inputs : List (List PredictedLoadProfile)) (o o' : Online (SSCO T DCSuccess DCFailure))
    (history : List (Int × SingleCostFn (Config T) DCSuccess DCFailure))
    (hh : o.p.hittingCost = CostFn.build history)
    (h : inputs.foldlM (m.updateSSCO S choose) o = .ok o') :
    o'.w = o.w ∧ o'.p.d = o.p.d ∧ o'.p.bounds = o.p.bounds ∧ o'.p.switchingCost = o.p.switchingCost ∧
    o'.p.tEnd = o.p.tEnd + inputs.length ∧ (∀ i ∈ inputs, o.w < i.length) ∧
    ∀ t x, t ≤ o.p.tEnd → o'.p.toProb.hitCost t x = o.p.toProb.hitCost t x := by
  induction inputs generalizing o history with
  | nil =>
    rw [List.foldlM_nil] at h
    cases h
    simp
  | cons i is ih =>
    rw [List.foldlM_cons] at h
    by_cases hw : o.w < i.length
    · obtain ⟨o1, h1, h2, h3, h4, h5, h6, h7, h8⟩ := (C43_update_ssco S choose m o i history hh).2 hw
      rw [h1] at h
      obtain ⟨a1, a2, a3, a4, a5, a6, a7⟩ := ih o1 _ h8 h
      refine ⟨a1.trans h2, a2.trans h3, a3.trans h4, a4.trans h5, ?_, ?_, ?_⟩
      · rw [a5, h6]; push_cast [List.length_cons]; ring
      · intro j hj
        rcases List.mem_cons.1 hj with rfl | hj
        · exact hw
        · rw [← h2]; exact a6 j hj
      · intro t x ht
        rw [a7 t x (by omega), (h7 t x ht).2.2.2]
    · rw [(C43_update_ssco S choose m o i history hh).1 (not_lt.1 hw)] at h
      cases h

variable [FromFloat T]

/-- The load of a homogeneous and certain input. -/
theorem certainLoad_ok_iff (loads : List PredictedLoadProfile) (l : T) (h1 : loads.length = 1) :
    DataCenterModel.certainLoad loads = .ok l ↔ ∃ z, loads = [[[z]]] ∧ l = FromFloat.fromFloat z := by
  match loads, h1 with
  | [p], _ =>
    match p with
    | [] => simp [DataCenterModel.certainLoad, idx, bind, Except.bind, assertP]
    | [zs] =>
      match zs with
      | [] => simp [DataCenterModel.certainLoad, idx, bind, Except.bind, assertP]
      | [z] => simp [DataCenterModel.certainLoad, idx, bind, Except.bind, assertP, eq_comm]
      | _ :: _ :: _ => simp [DataCenterModel.certainLoad, idx, bind, Except.bind, assertP]
    | _ :: _ :: _ => simp [DataCenterModel.certainLoad, idx, bind, Except.bind, assertP]

/-- **C43** Updates of load optimisation succeed exactly for a single certain load, no prediction window and loads that
are present for all slots up to now. They append the load and keep everything else. -/
theorem C43_update_slo (o o' : Online (SLO T)) (loads : List PredictedLoadProfile) :
    DataCenterModel.updateSLO o loads = .ok o' ↔
      o.p.tEnd = o.p.load.length ∧ o.w < 1 ∧ ∃ z, loads = [[[z]]] ∧
      o' = { o with p := { o.p with tEnd := o.p.tEnd + 1, load := o.p.load ++ [FromFloat.fromFloat z] } } := by
  unfold DataCenterModel.updateSLO DataCenterModel.verifyUpdate
  by_cases h1 : o.p.tEnd = o.p.load.length
  · by_cases h2 : loads.length = 1
    · have h2' : (loads.length : Int) = 1 := by omega
      simp only [h1, h2', assertP, decide_true, if_true, bind, Except.bind, true_and]
      cases hl : (DataCenterModel.certainLoad loads : Res T) with
      | error e =>
        simp only
        constructor
        · intro h; cases h
        · rintro ⟨_, z, hz, _⟩
          have := (certainLoad_ok_iff loads (FromFloat.fromFloat z : T) h2).2 ⟨z, hz, rfl⟩
          rw [hl] at this; cases this
      | ok l =>
        obtain ⟨z, hz, rfl⟩ := (certainLoad_ok_iff loads l h2).1 hl
        simp only
        by_cases h3 : o.w < 1
        · rw [if_pos (by simpa using h3)]
          simp only [h3, true_and]
          subst hz
          constructor
          · intro h; cases h; exact ⟨z, rfl, rfl⟩
          · rintro ⟨z', hz', rfl⟩
            cases hz'; rfl
        · rw [if_neg (by simpa using h3)]
          simp only [h3, false_and, iff_false]
          intro h; cases h
    · have h2' : ¬ (loads.length : Int) = 1 := by omega
      simp only [h1, h2', assertP, decide_true, if_true, bind, Except.bind, true_and]
      constructor
      · intro h; cases h
      · rintro ⟨_, z, rfl, _⟩; simp at h2
  · have h1' : ¬ o.p.tEnd + 1 = (o.p.load.length : Int) + 1 := by omega
    simp only [h1, h1', assertP, bind, Except.bind, false_and, iff_false]
    intro h; cases h

/-- **C43** The same for balanced-load optimisation. -/
theorem C43_update_sblo (o o' : Online (SBLO T)) (loads : List PredictedLoadProfile) :
    DataCenterModel.updateSBLO o loads = .ok o' ↔
      o.p.tEnd = o.p.load.length ∧ o.w < 1 ∧ ∃ z, loads = [[[z]]] ∧
      o' = { o with p := { o.p with tEnd := o.p.tEnd + 1, load := o.p.load ++ [FromFloat.fromFloat z] } } := by
  unfold DataCenterModel.updateSBLO DataCenterModel.verifyUpdate
  by_cases h1 : o.p.tEnd = o.p.load.length
  · by_cases h2 : loads.length = 1
    · have h2' : (loads.length : Int) = 1 := by omega
      simp only [h1, h2', assertP, decide_true, if_true, bind, Except.bind, true_and]
      cases hl : (DataCenterModel.certainLoad loads : Res T) with
      | error e =>
        simp only
        constructor
        · intro h; cases h
        · rintro ⟨_, z, hz, _⟩
          have := (certainLoad_ok_iff loads (FromFloat.fromFloat z : T) h2).2 ⟨z, hz, rfl⟩
          rw [hl] at this; cases this
      | ok l =>
        obtain ⟨z, hz, rfl⟩ := (certainLoad_ok_iff loads l h2).1 hl
        simp only
        by_cases h3 : o.w < 1
        · rw [if_pos (by simpa using h3)]
          simp only [h3, true_and]
          subst hz
          constructor
          · intro h; cases h; exact ⟨z, rfl, rfl⟩
          · rintro ⟨z', hz', rfl⟩
            cases hz'; rfl
        · rw [if_neg (by simpa using h3)]
          simp only [h3, false_and, iff_false]
          intro h; cases h
    · have h2' : ¬ (loads.length : Int) = 1 := by omega
      simp only [h1, h2', assertP, decide_true, if_true, bind, Except.bind, true_and]
      constructor
      · intro h; cases h
      · rintro ⟨_, z, rfl, _⟩; simp at h2
  · have h1' : ¬ o.p.tEnd + 1 = (o.p.load.length : Int) + 1 := by omega
    simp only [h1, h1', assertP, bind, Except.bind, false_and, iff_false]
    intro h; cases h

theorem access_append {α : Type} (xs ys : List α) (t : Int) (h : t ≤ xs.length) :
    access (xs ++ ys) t = access xs t := by
  unfold access
  by_cases h1 : 1 ≤ t
  · rw [if_pos ⟨h1, by simp; omega⟩, if_pos ⟨h1, h⟩, List.getElem?_append_left (by omega)]
  · rw [if_neg (by omega), if_neg (by omega)]

/-- **C43** Appending loads leaves the costs of load and balanced-load problems unchanged for slots with loads. -/
theorem C43_loads_past (S : Num.Solver) (p : SLO T) (q : SBLO T) (t : Int) (x : Config T) (tEnd : Int) (ls : List T) :
    (t ≤ p.load.length → ({ p with tEnd := tEnd, load := p.load ++ ls } : SLO T).hitCost t x = p.hitCost t x) ∧
    (t ≤ q.load.length → ({ q with tEnd := tEnd, load := q.load ++ ls } : SBLO T).hitCost S t x = q.hitCost S t x) := by
  constructor
  · intro h
    unfold SLO.hitCost
    simp only [access_append _ _ t h]
  · intro h
    unfold SBLO.hitCost
    simp only [CostFn.callCertainWithinBounds, applyLoadsOverTime, CostFn.new, CostFn.callCertain, CostFn.get,
      bind, Except.bind, assertP]
    by_cases ht : 1 ≤ t
    · have e : access ((q.load ++ ls).map fun l => ([toQ l] : LoadProfile)) (unshiftTime t 1) =
          access (q.load.map fun l => ([toQ l] : LoadProfile)) (unshiftTime t 1) := by
        rw [List.map_append, access_append]
        unfold unshiftTime
        simp; omega
      simp only [ge_iff_le, ht, decide_true, if_true, le_refl, Bool.and_self, List.filter_cons, List.filter_nil,
        List.getLast?_singleton, SingleCostFn.callCertain, SingleCostFn.callPredictive, SingleCostFn.certain,
        bind, Except.bind, e]
      rfl
    · simp only [ge_iff_le, ht, decide_false]
      rfl

example : DataCenterModel.updateSLO (T := ℤ) ⟨{ thirds with tEnd := 1 }, 0⟩ [[[2]]] =
    .ok ⟨{ thirds with tEnd := 2, load := [3, 2] }, 0⟩ :=
  (C43_update_slo _ _ _).2 ⟨rfl, by decide, 2, rfl, rfl⟩

end

end Soco
