import Verif.Spec.DataCenter
import Verif.Props.Results
import Verif.Props.Utils
import Verif.Model.Verifiers
import Mathlib.Tactic.Linarith
import Mathlib.Tactic.NormNum
import Mathlib.Tactic.FieldSimp
import Mathlib.Tactic.Ring
import Mathlib.Tactic.Positivity

/-!
# C42, C44, C45: encoding of dimensions and the constituents of data center costs
-/

namespace Soco

/-! ## C42 -/

/-- **C42** Encoding (outer, inner) pairs as indices is a bijection between the pairs below `(n, m)` and the numbers
below `n * m`, with `parse` as its inverse. -/
theorem C42_encode_bijective (n m : Nat) :
    (∀ o i, o < n → i < m → encode m o i < n * m ∧ parse m (encode m o i) = (o, i)) ∧
    (∀ k, k < n * m → (parse m k).1 < n ∧ (parse m k).2 < m ∧ encode m (parse m k).1 (parse m k).2 = k) := by
  constructor
  · intro o i ho hi
    have hm : 0 < m := by omega
    have h1 : encode m o i / m = o := by
      unfold encode
      rw [Nat.add_comm, Nat.add_mul_div_right _ _ hm, Nat.div_eq_of_lt hi, Nat.zero_add]
    refine ⟨?_, ?_⟩
    · unfold encode
      calc o * m + i < o * m + m := by omega
        _ = (o + 1) * m := by rw [Nat.add_mul, Nat.one_mul]
        _ ≤ n * m := Nat.mul_le_mul_right m ho
    · unfold parse
      rw [h1]
      simp [encode]
  · intro k hk
    have hm : 0 < m := Nat.pos_of_ne_zero (by rintro rfl; simp at hk)
    have h1 : k / m * m ≤ k := Nat.div_mul_le_self k m
    have h2 : k < k / m * m + m := Nat.lt_div_mul_add hm
    refine ⟨(Nat.div_lt_iff_lt_mul hm).2 hk, ?_, ?_⟩ <;> simp only [parse, encode] <;> omega

example : encode 3 1 2 = 5 ∧ parse 3 5 = (1, 2) := by decide

/-- **C42** The bounds of generated problems have one entry per dimension: the number of servers of the encoded server
type at the encoded location. -/
theorem C42_bounds {T : Type} [Value T] (m : DataCenterModel) (bs : List T) (h : m.bounds = .ok bs) :
    bs.length = m.locations.length * m.serverTypes.length ∧
    ∀ j k loc st, m.locations[j]? = some loc → m.serverTypes[k]? = some st →
      ∃ n : ℤ, loc.m st.key = some n ∧ bs[encode m.serverTypes.length j k]? = some ((n : ℤ) : T) := by
  have hl := mapM_ok_length h
  rw [List.length_range] at hl
  refine ⟨hl, ?_⟩
  intro j k loc st hj hk
  have hj' : j < m.locations.length := (List.getElem?_eq_some_iff.1 hj).1
  have hk' : k < m.serverTypes.length := (List.getElem?_eq_some_iff.1 hk).1
  obtain ⟨h1, h2⟩ := (C42_encode_bijective m.locations.length m.serverTypes.length).1 j k hj' hk'
  obtain ⟨y, hy1, hy2⟩ := mapM_ok_get h (i := encode m.serverTypes.length j k)
    (x := encode m.serverTypes.length j k) (by rw [List.getElem?_range]; exact h1)
  rw [h2] at hy2
  simp only [idx, hj, hk, bind, Except.bind, lookup] at hy2
  cases hn : loc.m st.key with
  | none => rw [hn] at hy2; cases hy2
  | some n =>
    rw [hn] at hy2
    cases hy2
    exact ⟨n, rfl, hy1⟩

/-- **C42** (partial) The switching costs of a generated problem have one entry per server type. They have one entry per
dimension only if there is a single location or there are no server types. -/
theorem C42_switching_costs_partial {T : Type} [Value T] (S : Num.Solver) (m : DataCenterModel)
    (loads : List LoadProfile) (p : SSCO T DCSuccess DCFailure) (h : m.toSSCO S loads = .ok p) :
    p.switchingCost.length = m.serverTypes.length ∧
    p.d = m.locations.length * m.serverTypes.length ∧ (p.bounds.length : Int) = p.d ∧ p.tEnd = loads.length ∧
    ((p.switchingCost.length : Int) = p.d ↔ m.locations.length = 1 ∨ m.serverTypes.length = 0) := by
  unfold DataCenterModel.toSSCO at h
  simp only [bind, Except.bind] at h
  cases hb : (m.bounds : Res (List T)) with
  | error e => rw [hb] at h; cases h
  | ok bs =>
    rw [hb] at h
    cases hs : switchingCosts m.switchingModel m.serverTypes with
    | error e => rw [hs] at h; cases h
    | ok sc =>
      rw [hs] at h
      cases h
      have h1 := mapM_ok_length hs
      have h2 := (C42_bounds m bs hb).1
      refine ⟨h1, by simp [DataCenterModel.d], by simp [DataCenterModel.d, h2], rfl, ?_⟩
      simp only [h1, DataCenterModel.d]
      constructor
      · intro h
        have h3 : m.serverTypes.length = m.locations.length * m.serverTypes.length := by exact_mod_cast h
        rcases Nat.eq_zero_or_pos m.serverTypes.length with h4 | h4
        · exact .inr h4
        · left
          have : 1 * m.serverTypes.length = m.locations.length * m.serverTypes.length := by omega
          exact (Nat.eq_of_mul_eq_mul_right h4 this).symm
      · rintro (h | h)
        · rw [h]; simp
        · rw [h]; simp

/-- A data center network with two locations and one server type. -/
def twoLocations : DataCenterModel where
  delta := 1
  locations := [⟨"a", fun _ => some 2⟩, ⟨"b", fun _ => some 3⟩]
  serverTypes := [⟨"s", 1⟩]
  sources := [⟨"", fun _ _ => .ok 0⟩]
  jobTypes := [⟨"", fun _ => .ok 1⟩]
  consumptionModel := .linear fun _ => some ⟨1, 2⟩
  energyModel := .linear fun _ => some fun _ => 1
  lossModel := fun _ => some ⟨1, 0⟩
  switchingModel := fun _ => some ⟨1, 1, 2, 0, 1, 0, 0⟩

/-- The properties which are violated for two locations: the generated problem has two dimensions but one switching
cost, so it is rejected by its verification, and movement costs between its configurations panic. -/
theorem C42_two_locations_counterexample (S : Num.Solver) :
    ∃ p : SSCO ℤ DCSuccess DCFailure, twoLocations.toSSCO S [[1]] = .ok p ∧ p.d = 2 ∧
      p.switchingCost.length = 1 ∧ p.verify = .error (.fail .invalid) ∧
      p.toProb.movement [0, 0] [1, 1] false = .error .panic := by
  refine ⟨_, rfl, rfl, rfl, rfl, rfl⟩

example (S : Num.Solver) : ∃ p : SSCO ℤ DCSuccess DCFailure,
    ({ twoLocations with locations := [⟨"a", fun _ => some 2⟩] } : DataCenterModel).toSSCO S [[1]] = .ok p ∧
    (p.switchingCost.length : Int) = p.d ∧ p.d = 1 := ⟨_, rfl, rfl, rfl⟩

/-! ## C45 -/

/-- **C45** The average delay is non-negative. -/
theorem C45_delay_nonneg (delta n d : ℚ) : 0 ≤ averageDelay delta n d := by
  unfold averageDelay
  simp only
  split
  · split
    · rename_i h1 h2
      have : (0 : ℚ) ≤ 1 / (1 / d - n / delta) := one_div_nonneg.2 (by linarith)
      exact_mod_cast this
    · exact le_top
  · exact le_refl _

/-- **C45** The average delay is infinite exactly if there are jobs whose arrival rate reaches the service rate. -/
theorem C45_delay_infinite_iff (delta n d : ℚ) :
    averageDelay delta n d = ⊤ ↔ 0 < n ∧ 0 < d ∧ 1 / d ≤ n / delta := by
  unfold averageDelay
  simp only
  constructor
  · intro h
    split at h
    · rename_i h1
      split at h
      · cases h
      · rename_i h2; exact ⟨h1.1, h1.2, not_lt.1 h2⟩
    · cases h
  · rintro ⟨h1, h2, h3⟩
    rw [if_pos ⟨h1, h2⟩, if_neg (not_lt.2 h3)]

/-- **C45** With jobs and a finite delay, the delay is the sojourn time of a processor sharing queue. -/
theorem C45_delay_value (delta n d : ℚ) (hn : 0 < n) (hd : 0 < d) (h : n / delta < 1 / d) :
    averageDelay delta n d = ((1 / (1 / d - n / delta) : ℚ) : ECost) := by
  unfold averageDelay
  simp only
  rw [if_pos ⟨hn, hd⟩, if_pos h]

/-- **C45** The average delay does not decrease with the number of jobs or their mean duration. -/
theorem C45_delay_mono (delta n n' d d' : ℚ) (hdelta : 0 < delta) (h : n ≤ n') (hd : d ≤ d') :
    averageDelay delta n d ≤ averageDelay delta n' d' := by
  by_cases h0 : 0 < n ∧ 0 < d
  · have hn' : 0 < n' := lt_of_lt_of_le h0.1 h
    have hd' : 0 < d' := lt_of_lt_of_le h0.2 hd
    have h1 : n / delta ≤ n' / delta := div_le_div_of_nonneg_right h hdelta.le
    have h2 : 1 / d' ≤ 1 / d := one_div_le_one_div_of_le h0.2 hd
    by_cases h3 : n' / delta < 1 / d'
    · rw [C45_delay_value delta n d h0.1 h0.2 (by linarith), C45_delay_value delta n' d' hn' hd' h3]
      have : 1 / (1 / d - n / delta) ≤ 1 / (1 / d' - n' / delta) :=
        one_div_le_one_div_of_le (by linarith) (by linarith)
      exact_mod_cast this
    · rw [(C45_delay_infinite_iff delta n' d').2 ⟨hn', hd', not_lt.1 h3⟩]
      exact le_top
  · have : averageDelay delta n d = 0 := by
      unfold averageDelay
      rw [if_neg h0]
    rw [this]
    exact C45_delay_nonneg _ _ _

example : averageDelay 1 (1 / 2) 1 = ((2 : ℚ) : ECost) ∧ averageDelay 1 1 1 = ⊤ := by decide +kernel

/-- **C45** The revenue loss is non-negative, does not decrease with the delay, and is zero up to the minimal detectable
delay. -/
theorem C45_revenue_loss (models : String → Option DelayLoss) (jt : JobType) (m : DelayLoss)
    (hm : models jt.key = some m) (hg : 0 ≤ m.gamma) (d d' : ℚ) (h : d ≤ d') :
    ∃ r r' : ℚ, revenueLossOf models jt d = .ok r ∧ revenueLossOf models jt d' = .ok r' ∧
      0 ≤ r ∧ r ≤ r' ∧ (d ≤ m.delta → r = 0) ∧ (m.delta ≤ d → r = m.gamma * (d - m.delta)) := by
  refine ⟨m.gamma * pos (d - m.delta), m.gamma * pos (d' - m.delta), ?_, ?_, ?_, ?_, ?_, ?_⟩
  · simp [revenueLossOf, lookup, hm, bind, Except.bind]
  · simp [revenueLossOf, lookup, hm, bind, Except.bind]
  · rw [pos_eq]; exact mul_nonneg hg (le_max_left _ _)
  · rw [pos_eq, pos_eq]
    exact mul_le_mul_of_nonneg_left (max_le_max (le_refl _) (by linarith)) hg
  · intro h1; rw [pos_eq, max_eq_left (by linarith), mul_zero]
  · intro h1; rw [pos_eq, max_eq_right (by linarith)]

example : revenueLossOf (fun _ => some ⟨2, 1⟩) ⟨"", fun _ => .ok 1⟩ 4 = .ok 6 := by decide +kernel

/-- **C45** The linear models are affine in the utilisation, from idle power at zero to peak power at one; the
simplified model is the linear one with half of the peak power when idling. -/
theorem C45_linear_consumption (models : String → Option LinearConsumption) (delta : ℚ) (st : ServerType)
    (q : LinearConsumption) (h : models st.key = some q) :
    (ConsumptionModel.linear models).consumption delta st 0 = .ok (delta * q.phiMin) ∧
    (ConsumptionModel.linear models).consumption delta st 1 = .ok (delta * q.phiMax) ∧
    (∀ s, (ConsumptionModel.linear models).consumption delta st s =
      .ok ((1 - s) * (delta * q.phiMin) + s * (delta * q.phiMax))) ∧
    (∀ s, (ConsumptionModel.simplifiedLinear fun k => (models k).map (·.phiMax)).consumption delta st s =
      (ConsumptionModel.linear fun k => (models k).map fun q => ⟨q.phiMax / 2, q.phiMax⟩).consumption delta st s) := by
  simp only [ConsumptionModel.consumption, lookup, h, bind, Except.bind, Option.map, Except.ok.injEq]
  refine ⟨by ring, by ring, fun s => by ring, fun s => by ring⟩

/-- **C45** A switching cost built from a normalised switching cost has this normalised switching cost. -/
theorem C45_switching_cost_roundtrip (delta x energyCost phiMin : ℚ) (h : energyCost * delta * phiMin ≠ 0) :
    (SwitchingCost.fromNormalized delta x energyCost phiMin).normalized delta = x := by
  unfold SwitchingCost.normalized SwitchingCost.switchingCost SwitchingCost.fromNormalized
  simp only [mul_zero, add_zero, zero_add]
  rw [div_eq_iff h]; ring

example : (SwitchingCost.fromNormalized 2 4 3 (1 / 2)).switchingCost = 12 := by decide +kernel

/-- **C45** Switching costs are non-negative for non-negative parameters. -/
theorem C45_switching_cost_nonneg (c : SwitchingCost) (h1 : 0 ≤ c.energyCost) (h2 : 0 ≤ c.epsilon) (h3 : 0 ≤ c.delta)
    (h4 : 0 ≤ c.phiMax) (h5 : 0 ≤ c.tau) (h6 : 0 ≤ c.rho) : 0 ≤ c.switchingCost := by
  unfold SwitchingCost.switchingCost
  positivity

/-- **C45** The parts of the switching cost: with all of them absent it is zero, further energy for toggling is paid at
the price of energy, each further slot of migration is paid as a slot at full power, wear-and-tear and risk are added as
they are, and the power when idling has no influence. -/
theorem C45_switching_cost_parts (c : SwitchingCost) (y : ℚ) :
    (⟨c.energyCost, c.phiMin, c.phiMax, 0, 0, 0, 0⟩ : SwitchingCost).switchingCost = 0 ∧
    ({ c with epsilon := c.epsilon + y } : SwitchingCost).switchingCost = c.switchingCost + c.energyCost * y ∧
    ({ c with delta := c.delta + y } : SwitchingCost).switchingCost =
      c.switchingCost + y * (c.energyCost * c.phiMax) ∧
    ({ c with tau := c.tau + y } : SwitchingCost).switchingCost = c.switchingCost + y ∧
    ({ c with rho := c.rho + y } : SwitchingCost).switchingCost = c.switchingCost + y ∧
    ({ c with phiMin := y } : SwitchingCost).switchingCost = c.switchingCost := by
  unfold SwitchingCost.switchingCost
  refine ⟨by ring, by ring, by ring, by ring, by ring, rfl⟩

/-- **C45** The normalised switching cost is the number of slots after which idling costs as much as switching. -/
theorem C45_normalized_idle (c : SwitchingCost) (delta : ℚ) (h1 : 0 < c.energyCost) (h2 : 0 < delta) (h3 : 0 < c.phiMin)
    (k : ℚ) : k ≤ c.normalized delta ↔ k * (c.energyCost * (delta * c.phiMin)) ≤ c.switchingCost := by
  unfold SwitchingCost.normalized
  rw [le_div_iff₀ (by positivity), mul_assoc c.energyCost]

example : (⟨2, 1, 3, 4, 5, 6, 7⟩ : SwitchingCost).switchingCost = 51 ∧
    (⟨2, 1, 3, 4, 5, 6, 7⟩ : SwitchingCost).normalized 1 = 51 / 2 := by decide +kernel

/-! ## C44 -/

/-- **C44** The linear model charges the price of the slot for every unit of energy. -/
theorem C44_linear (cost : String → Option (Int → ℚ)) (t : Int) (loc : Location) (c : Int → ℚ) (p : ℚ)
    (h : cost loc.key = some c) : (EnergyModel.linear cost).cost t loc p = .ok ((c t * p : ℚ) : ECost) := by
  simp [EnergyModel.cost, lookup, h, bind, Except.bind, ECost.mulQ]

/-- What is still to be drawn after the earlier sources. -/
theorem quota_step (p cum l : ℚ) (hcum : 0 ≤ l) :
    max 0 (max 0 (p - cum) - l) = max 0 (p - (cum + l)) := by
  rcases le_total (p - cum) 0 with h | h
  · rw [max_eq_left h, max_eq_left (by linarith), max_eq_left (by linarith)]
  · rw [max_eq_right h]; congr 1; ring

/-- **C44** (partial) With quotas the code charges the sum of all prices plus the energy drawn (in place of their
product) minus profits of unused energy. Energy is drawn as documented: sources in sorted order, each up to its
limit. -/
theorem C44_quotas_value_partial (t : Int) (loc : Location) (p : ℚ) (ss : List EnergySource) (cum : ℚ)
    (hl : ∀ s ∈ ss, 0 ≤ s.limit t loc) :
    quotasCost t loc p ss cum =
      (ss.map (·.cost t)).sum + (Spec.drawn (max 0 (p - cum)) (ss.map (·.limit t loc))).sum -
        (List.zipWith (fun (s : EnergySource) d => s.profit t * (s.limit t loc - d)) ss
          (Spec.drawn (max 0 (p - cum)) (ss.map (·.limit t loc)))).sum := by
  induction ss generalizing cum with
  | nil => simp [quotasCost, Spec.drawn]
  | cons s ss ih =>
    have h1 : 0 ≤ s.limit t loc := hl s (by simp)
    have h2 := ih (cum + s.limit t loc) (fun s' hs' => hl s' (by simp [hs']))
    simp only [quotasCost, h2, Spec.drawn, List.map_cons, List.sum_cons, List.zipWith_cons_cons, quota_step p cum _ h1]
    have e1 : quotaDrawn (quotaDelta (p : ECost) cum) (s.limit t loc) = min (max 0 (p - cum)) (s.limit t loc) := by
      have : quotaDelta (p : ECost) cum = ((max 0 (p - cum) : ℚ) : ECost) := by
        simp [quotaDelta, pos_eq]
      rw [this]; simp [quotaDrawn, umin_eq]
    have e2 : quotaUnused (quotaDelta (p : ECost) cum) (s.limit t loc) =
        s.limit t loc - min (max 0 (p - cum)) (s.limit t loc) := by
      have : quotaDelta (p : ECost) cum = ((max 0 (p - cum) : ℚ) : ECost) := by
        simp [quotaDelta, pos_eq]
      rw [this]
      simp only [quotaUnused, pos_eq]
      rcases le_total (max 0 (p - cum)) (s.limit t loc) with h | h
      · rw [min_eq_left h, max_eq_right (by linarith)]
      · rw [min_eq_right h, max_eq_left (by linarith)]; ring
    rw [e1, e2]; ring

theorem drawn_sum (p : ℚ) (ls : List ℚ) (hp : 0 ≤ p) (hl : ∀ l ∈ ls, 0 ≤ l) :
    (Spec.drawn p ls).sum = min p ls.sum := by
  induction ls generalizing p with
  | nil => simp [Spec.drawn, hp]
  | cons l ls ih =>
    have h1 : 0 ≤ l := hl l (by simp)
    have h2 : 0 ≤ ls.sum := List.sum_nonneg fun x hx => hl x (by simp [hx])
    rw [Spec.drawn, List.sum_cons, ih _ (le_max_left _ _) (fun x hx => hl x (by simp [hx])), List.sum_cons]
    rcases le_total p l with h | h
    · rw [min_eq_left h, max_eq_left (by linarith), min_eq_left h2, min_eq_left (by linarith)]; ring
    · rw [min_eq_right h, max_eq_right (by linarith)]
      rcases le_total (p - l) ls.sum with h3 | h3
      · rw [min_eq_left h3, min_eq_left (by linarith)]; ring
      · rw [min_eq_right h3, min_eq_right (by linarith)]

/-- **C44** (partial) If all prices are one, the charge exceeds the documented one by the number of sources. -/
theorem C44_quotas_unit_price_partial (t : Int) (loc : Location) (p : ℚ) (ss : List EnergySource) (cum : ℚ)
    (hl : ∀ s ∈ ss, 0 ≤ s.limit t loc) (hc : ∀ s ∈ ss, s.cost t = 1) :
    quotasCost t loc p ss cum =
      Spec.quotaCharge (max 0 (p - cum)) (ss.map fun s => (s.cost t, s.profit t, s.limit t loc)) + ss.length := by
  induction ss generalizing cum with
  | nil => simp [quotasCost, Spec.quotaCharge]
  | cons s ss ih =>
    have h1 : 0 ≤ s.limit t loc := hl s (by simp)
    have h2 := ih (cum + s.limit t loc) (fun s' hs' => hl s' (by simp [hs'])) (fun s' hs' => hc s' (by simp [hs']))
    have h3 : s.cost t = 1 := hc s (by simp)
    have h4 := C44_quotas_value_partial t loc p [s] cum (by simpa using h1)
    simp only [quotasCost, add_zero, List.map_cons, List.map_nil, List.sum_cons, List.sum_nil, Spec.drawn,
      List.zipWith_cons_cons, List.zipWith_nil_left] at h4
    simp only [quotasCost, h2, Spec.quotaCharge, List.map_cons, List.length_cons, quota_step p cum _ h1, h3]
    push_cast; linarith

/-- **C44** (partial) With non-negative limits and profits of at least minus one, the cost does not decrease with the
consumption. -/
theorem C44_quotas_monotone_partial (t : Int) (loc : Location) (p p' : ℚ) (ss : List EnergySource) (cum : ℚ)
    (hp : p ≤ p') (hr : ∀ s ∈ ss, -1 ≤ s.profit t) :
    quotasCost t loc p ss cum ≤ quotasCost t loc p' ss cum := by
  induction ss generalizing cum with
  | nil => simp [quotasCost]
  | cons s ss ih =>
    have h2 := ih (cum + s.limit t loc) (fun s' hs' => hr s' (by simp [hs']))
    have h3 : -1 ≤ s.profit t := hr s (by simp)
    have e : ∀ q : ℚ, quotaDrawn (quotaDelta (q : ECost) cum) (s.limit t loc) -
        s.profit t * quotaUnused (quotaDelta (q : ECost) cum) (s.limit t loc) =
        min (max 0 (q - cum)) (s.limit t loc) - s.profit t * max 0 (s.limit t loc - max 0 (q - cum)) := by
      intro q
      have : quotaDelta (q : ECost) cum = ((max 0 (q - cum) : ℚ) : ECost) := by simp [quotaDelta, pos_eq]
      rw [this]; simp [quotaDrawn, quotaUnused, umin_eq, pos_eq]
    have hm : max 0 (p - cum) ≤ max 0 (p' - cum) := max_le_max (le_refl _) (by linarith)
    have h5 : min (max 0 (p - cum)) (s.limit t loc) - s.profit t * max 0 (s.limit t loc - max 0 (p - cum)) ≤
        min (max 0 (p' - cum)) (s.limit t loc) - s.profit t * max 0 (s.limit t loc - max 0 (p' - cum)) := by
      generalize max 0 (p - cum) = a at hm ⊢
      generalize max 0 (p' - cum) = b at hm ⊢
      generalize s.limit t loc = l
      generalize s.profit t = r at h3 ⊢
      rcases le_total a l with h | h <;> rcases le_total b l with h' | h'
      · rw [min_eq_left h, min_eq_left h', max_eq_right (by linarith), max_eq_right (by linarith)]; nlinarith
      · rw [min_eq_left h, min_eq_right h', max_eq_right (by linarith), max_eq_left (by linarith)]; nlinarith
      · have : a = b := by linarith
        subst this; exact le_refl _
      · rw [min_eq_right h, min_eq_right h', max_eq_left (by linarith), max_eq_left (by linarith)]
    have e1 := e p
    have e2 := e p'
    simp only [quotasCost]
    linarith

/-- The sources are used by increasing sum of price and profit, each exactly once. -/
theorem C44_sources_sorted (t : Int) (ss : List EnergySource) :
    (sortSources t ss).Perm ss ∧
    (sortSources t ss).Pairwise fun a b => a.cost t + a.profit t ≤ b.cost t + b.profit t := by
  refine ⟨List.mergeSort_perm _ _, ?_⟩
  have := List.pairwise_mergeSort (le := fun a b : EnergySource => decide (a.cost t + a.profit t ≤ b.cost t + b.profit t))
    (by intro a b c; simp only [decide_eq_true_eq]; exact le_trans)
    (by intro a b; simp only [Bool.or_eq_true, decide_eq_true_eq]; exact le_total _ _) ss
  simpa [sortSources] using this

/-- One source with price 2, no profit and a limit of 10. -/
def oneSource : EnergySource := ⟨fun _ => 2, fun _ => 0, fun _ _ => 10⟩

/-- The documented charge is violated: three units at price 2 cost 5, not 6, and no consumption costs 2, not 0. -/
theorem C44_price_counterexample (loc : Location) :
    (EnergyModel.quotas fun _ => some [oneSource]).cost 1 loc (3 : ℚ) = .ok ((5 : ℚ) : ECost) ∧
    Spec.quotaCharge 3 [(2, 0, 10)] = 6 ∧
    (EnergyModel.quotas fun _ => some [oneSource]).cost 1 loc (0 : ℚ) = .ok ((2 : ℚ) : ECost) ∧
    (EnergyModel.linear fun _ => some fun _ => 2).cost 1 loc (3 : ℚ) = .ok ((6 : ℚ) : ECost) := by
  have h : ∀ p : ECost, (EnergyModel.quotas fun _ => some [oneSource]).cost 1 loc p =
      .ok ((quotasCost 1 loc p [oneSource] 0 : ℚ) : ECost) := by
    intro p; simp [EnergyModel.cost, lookup, bind, Except.bind, sortSources]
  refine ⟨?_, ?_, ?_, ?_⟩
  · rw [h, C44_quotas_value_partial]
    · norm_num [Spec.drawn, oneSource]
    · simp [oneSource]
  · norm_num [Spec.quotaCharge]
  · rw [h, C44_quotas_value_partial]
    · norm_num [Spec.drawn, oneSource]
    · simp [oneSource]
  · rw [C44_linear _ 1 loc (fun _ => 2) 3 rfl]; norm_num

/-- With quotas, infinite consumption (servers utilised beyond their limit) has finite cost. -/
theorem C44_infinite_consumption_counterexample (loc : Location) :
    (EnergyModel.quotas fun _ => some [oneSource]).cost 1 loc ⊤ = .ok ((12 : ℚ) : ECost) := by
  show Except.ok (((_ : ℚ)) : ECost) = _
  congr 2
  simp [sortSources, quotasCost, quotaDelta, quotaDrawn, quotaUnused, oneSource]
  norm_num

end Soco
