import Verif.Spec.Complete
import Verif.Props.Site
import Verif.Props.Generated

/-!
# C97: complete models of data centers are converted and evaluated without a panic
-/

namespace Soco
open Spec DataCenterModel
namespace Complete

theorem mapM_isOk_iff {ε α β : Type} (f : α → Except ε β) (xs : List α) :
    (∃ ys, xs.mapM f = .ok ys) ↔ ∀ x ∈ xs, ∃ y, f x = .ok y := by
  constructor
  · rintro ⟨ys, h⟩ x hx
    obtain ⟨i, hi⟩ := List.getElem?_of_mem hx
    obtain ⟨y, _, hy⟩ := mapM_ok_get h hi
    exact ⟨y, hy⟩
  · intro h
    classical
    choose g hg using h
    refine ⟨xs.attach.map fun x => g x.1 x.2, ?_⟩
    rw [mapM_ok_iff, List.forall₂_map_right_iff]
    rw [List.forall₂_iff_get]
    refine ⟨by simp, fun i h1 h2 => ?_⟩
    simp [hg]

theorem lookup_isOk_iff {α : Type} (f : String → Option α) (k : String) : (∃ a, lookup f k = .ok a) ↔ ∃ a, f k = some a := by
  unfold lookup
  cases f k <;> simp

theorem bounds_isOk_iff {T : Type} [Value T] (m : DataCenterModel) : (∃ bs : List T, m.bounds = .ok bs) ↔ HasCounts m := by
  unfold DataCenterModel.bounds
  rw [mapM_isOk_iff]
  constructor
  · intro h loc hl st hs
    obtain ⟨j, hj⟩ := List.getElem?_of_mem hl
    obtain ⟨k, hk⟩ := List.getElem?_of_mem hs
    have hj' : j < m.locations.length := (List.getElem?_eq_some_iff.1 hj).1
    have hk' : k < m.serverTypes.length := (List.getElem?_eq_some_iff.1 hk).1
    obtain ⟨h1, h2⟩ := (C42_encode_bijective m.locations.length m.serverTypes.length).1 j k hj' hk'
    obtain ⟨y, hy⟩ := h _ (List.mem_range.2 h1)
    rw [h2] at hy
    simp only [idx, hj, hk, bind, Except.bind] at hy
    rw [← lookup_isOk_iff]
    cases hn : lookup loc.m st.key with
    | error e => rw [hn] at hy; cases hy
    | ok n => exact ⟨n, rfl⟩
  · intro h k hk
    obtain ⟨h1, h2, _⟩ := (C42_encode_bijective m.locations.length m.serverTypes.length).2 k (List.mem_range.1 hk)
    obtain ⟨n, hn⟩ := h _ (List.getElem_mem h1) _ (List.getElem_mem h2)
    refine ⟨((n : ℤ) : T), ?_⟩
    simp [idx, List.getElem?_eq_getElem h1, List.getElem?_eq_getElem h2, bind, Except.bind, lookup, hn]

theorem switching_isOk_iff (m : DataCenterModel) :
    (∃ sc, switchingCosts m.switchingModel m.serverTypes = .ok sc) ↔ HasSwitching m := by
  unfold switchingCosts
  rw [mapM_isOk_iff]
  apply forall₂_congr
  intro st _
  unfold lookup
  cases m.switchingModel st.key <;> simp [bind, Except.bind]

theorem loads_isOk_iff {T : Type} [Value T] [FromFloat T] (loads : List LoadProfile) :
    (∃ ls : List T, singleLoads loads = .ok ls) ↔ ∀ l ∈ loads, l ≠ [] := by
  unfold singleLoads
  rw [mapM_isOk_iff]
  apply forall₂_congr
  intro l _
  cases l <;> simp [idx, bind, Except.bind]

theorem power_isOk_iff (m : DataCenterModel) (u : ℚ) :
    (∀ st ∈ m.serverTypes, ∃ c, m.consumptionModel.consumption m.delta st u = .ok c) ↔ HasPower m := by
  unfold HasPower ConsumptionModel.consumption
  apply forall₂_congr
  intro st _
  cases m.consumptionModel with
  | linear f => simp only [lookup]; cases f st.key <;> simp [bind, Except.bind]
  | simplifiedLinear f => simp only [lookup]; cases f st.key <;> simp [bind, Except.bind]
  | nonLinear g f => simp only [lookup]; cases f st.key <;> simp [bind, Except.bind]

theorem price_isOk_iff (m : DataCenterModel) (t : Int) (p : ECost) :
    (∀ loc ∈ m.locations, ∃ c, m.energyModel.cost t loc p = .ok c) ↔ HasPrice m := by
  unfold HasPrice EnergyModel.cost
  apply forall₂_congr
  intro loc _
  cases m.energyModel with
  | linear f => simp only [lookup]; cases f loc.key <;> simp [bind, Except.bind]
  | quotas f => simp only [lookup]; cases f loc.key <;> simp [bind, Except.bind]

end Complete
open Complete

/-- **C97** A model is turned into a convex problem exactly if all numbers of servers and all switching costs are
given. -/
theorem C97_convex_iff {T : Type} [Value T] (S : Num.Solver) (m : DataCenterModel) (loads : List LoadProfile) :
    (∃ p : SSCO T DCSuccess DCFailure, m.toSSCO S loads = .ok p) ↔ HasCounts m ∧ HasSwitching m := by
  rw [← bounds_isOk_iff (T := T), ← switching_isOk_iff]
  unfold DataCenterModel.toSSCO
  cases (m.bounds : Res (List T)) with
  | error e => simp [bind, Except.bind]
  | ok bs =>
    cases switchingCosts m.switchingModel m.serverTypes with
    | error e => simp [bind, Except.bind]
    | ok sc => simp [bind, Except.bind]

/-- **C97** The same for smoothed convex optimisation. -/
theorem C97_smoothed_iff {T : Type} [Value T] (S : Num.Solver) (m : DataCenterModel) (loads : List LoadProfile) :
    (∃ p : SCO T DCSuccess DCFailure, m.toSCO S loads = .ok p) ↔ HasCounts m ∧ HasSwitching m := by
  rw [← C97_convex_iff (T := T) S m loads]
  unfold DataCenterModel.toSCO
  cases (m.toSSCO S loads : Res (SSCO T DCSuccess DCFailure)) <;> simp [bind, Except.bind]

/-- **C97** A model is turned into a balanced-load problem exactly if there is one location, one source and one job type, all
numbers of servers and all switching costs are given, and there is a load for every slot. -/
theorem C97_balanced_iff {T : Type} [Value T] [FromFloat T] (m : DataCenterModel) (loads : List LoadProfile) :
    (∃ p : SBLO T, m.toSBLO loads = .ok p) ↔ m.locations.length = 1 ∧ m.sources.length = 1 ∧ m.jobTypes.length = 1 ∧
      HasCounts m ∧ HasSwitching m ∧ ∀ l ∈ loads, l ≠ [] := by
  rw [← bounds_isOk_iff (T := T), ← switching_isOk_iff, ← loads_isOk_iff (T := T)]
  unfold DataCenterModel.toSBLO
  by_cases h1 : m.locations.length = 1
  · obtain ⟨loc, hloc⟩ := List.length_eq_one_iff.1 h1
    by_cases h2 : m.sources.length = 1
    · by_cases h3 : m.jobTypes.length = 1
      · cases (m.bounds : Res (List T)) with
        | error e => simp [bind, Except.bind, assertP, idx, hloc, h2, h3]
        | ok bs =>
          cases switchingCosts m.switchingModel m.serverTypes with
          | error e => simp [bind, Except.bind, assertP, idx, hloc, h2, h3]
          | ok sc =>
            cases (singleLoads loads : Res (List T)) <;> simp [bind, Except.bind, assertP, idx, hloc, h2, h3]
      · simp [bind, Except.bind, assertP, idx, hloc, h2, h3]
    · simp [bind, Except.bind, assertP, idx, hloc, h2]
  · simp [bind, Except.bind, assertP, h1]

namespace Complete

theorem cost_finite (m : DataCenterModel) (t : Int) (loc : Location) (p : ℚ) (c : ECost)
    (h : m.energyModel.cost t loc (p : ECost) = .ok c) : ∃ q : ℚ, c = (q : ECost) := by
  unfold EnergyModel.cost at h
  cases hm : m.energyModel with
  | linear f =>
    rw [hm] at h
    simp only [lookup] at h
    cases hf : f loc.key with
    | none => rw [hf] at h; cases h
    | some g =>
      rw [hf] at h
      cases h
      exact ⟨_, rfl⟩
  | quotas f =>
    rw [hm] at h
    simp only [lookup] at h
    cases hf : f loc.key with
    | none => rw [hf] at h; cases h
    | some g =>
      rw [hf] at h
      cases h
      exact ⟨_, rfl⟩

theorem sumM_isOk_iff {ε α ι : Type} [Zero α] [Add α] (f : ι → Except ε α) (xs : List ι) :
    (∃ s, sumM (xs.map f) = .ok s) ↔ ∀ x ∈ xs, ∃ y, f x = .ok y := by
  induction xs with
  | nil => simp [sumM]
  | cons x xs ih =>
    simp only [List.map_cons, sumM, List.mem_cons, forall_eq_or_imp, ← ih]
    cases f x with
    | error e => simp [bind, Except.bind]
    | ok y =>
      cases sumM (xs.map f) <;> simp [bind, Except.bind]

theorem full_isOk_iff (m : DataCenterModel) (loc : Location) (hloc : m.locations = [loc]) (n : Nat) (st : ServerType) :
    (∃ v, (m.fullCost loc n st >>= finiteCost) = .ok v) ↔
      (∃ c, m.consumptionModel.consumption m.delta st 1 = .ok c) ∧ HasPrice m := by
  unfold DataCenterModel.fullCost
  cases m.consumptionModel.consumption m.delta st 1 with
  | error e => simp [bind, Except.bind]
  | ok c =>
    have hp : ∀ t : Int, (∃ v, m.energyModel.cost t loc (c : ECost) = .ok v) ↔ HasPrice m := by
      intro t
      rw [← price_isOk_iff m t (c : ECost), hloc]
      simp
    simp only [bind, Except.bind, Except.ok.injEq, exists_eq', true_and]
    by_cases hn : n > 0
    · rw [if_pos hn]
      have hs : (∃ s, sumM ((List.range n).map fun t : Nat => m.energyModel.cost (t : Int) loc (c : ECost)) = .ok s) ↔
          HasPrice m := by
        rw [sumM_isOk_iff]
        constructor
        · intro h
          exact (hp 0).1 (h 0 (List.mem_range.2 hn))
        · intro h t _
          exact (hp t).2 h
      cases hv : sumM ((List.range n).map fun t : Nat => m.energyModel.cost (t : Int) loc (c : ECost)) with
      | error e =>
        rw [hv] at hs
        simpa using hs
      | ok s =>
        rw [hv] at hs
        have hq : ∃ q : ℚ, s = (q : ECost) := by
          obtain ⟨vs, h1, h2⟩ := sumM_map_ok hv
          subst h2
          have : ∀ (ts : List Nat) (vs : List ECost), List.Forall₂ (fun (t : Nat) v => m.energyModel.cost (t : Int) loc
              (c : ECost) = .ok v) ts vs → ∃ q : ℚ, vs.sum = (q : ECost) := by
            intro ts vs h
            induction h with
            | nil => exact ⟨0, rfl⟩
            | cons h _ ih =>
              obtain ⟨q, hq⟩ := cost_finite m _ loc c _ h
              obtain ⟨q', hq'⟩ := ih
              exact ⟨q + q', by rw [List.sum_cons, hq, hq']; rfl⟩
          exact this _ _ h1
        obtain ⟨q, rfl⟩ := hq
        have e : finiteCost (ECost.divQ ((q : ℚ) : ECost) n) = .ok (q / n) := rfl
        simp only [e]
        simpa using hs
    · rw [if_neg hn]
      cases hv : m.energyModel.cost 1 loc (c : ECost) with
      | error e =>
        have := hp 1
        rw [hv] at this
        simpa using this
      | ok s =>
        have := hp 1
        rw [hv] at this
        obtain ⟨q, rfl⟩ := cost_finite m _ loc c _ hv
        have e : finiteCost ((q : ℚ) : ECost) = .ok q := rfl
        simp only [e]
        simpa using this

end Complete

/-- **C97** A model is turned into a load problem exactly if, moreover, the energy consumption of every type of server and the
price of energy are given. -/
theorem C97_load_iff {T : Type} [Value T] [FromFloat T] (m : DataCenterModel) (loads : List LoadProfile)
    (hst : m.serverTypes ≠ []) :
    (∃ p : SLO T, m.toSLO loads = .ok p) ↔ m.locations.length = 1 ∧ m.sources.length = 1 ∧ m.jobTypes.length = 1 ∧
      HasCounts m ∧ HasSwitching m ∧ HasPower m ∧ HasPrice m ∧ ∀ l ∈ loads, l ≠ [] := by
  rw [← bounds_isOk_iff (T := T), ← switching_isOk_iff, ← loads_isOk_iff (T := T), ← power_isOk_iff m 1]
  unfold DataCenterModel.toSLO
  by_cases h1 : m.locations.length = 1
  · obtain ⟨loc, hloc⟩ := List.length_eq_one_iff.1 h1
    have hfull : (∃ hc, (m.serverTypes.mapM fun st => m.fullCost loc loads.length st >>= finiteCost) = .ok hc) ↔
        (∀ st ∈ m.serverTypes, ∃ c, m.consumptionModel.consumption m.delta st 1 = .ok c) ∧ HasPrice m := by
      rw [mapM_isOk_iff]
      simp only [full_isOk_iff m loc hloc]
      constructor
      · intro h
        obtain ⟨st, hm⟩ := List.exists_mem_of_ne_nil _ hst
        exact ⟨fun st hm => (h st hm).1, (h st hm).2⟩
      · rintro ⟨h, h'⟩ st hm
        exact ⟨h st hm, h'⟩
    have hcomm : ∀ a b c d e f g h : Prop, (a ∧ b ∧ c ∧ d ∧ e ∧ f ∧ g ∧ h) ↔ (a ∧ b ∧ c ∧ d ∧ e ∧ (f ∧ g) ∧ h) := by
      intros; tauto
    rw [hcomm, ← hfull]
    by_cases h2 : m.sources.length = 1
    · by_cases h3 : m.jobTypes.length = 1
      · cases (m.bounds : Res (List T)) with
        | error e => simp [bind, Except.bind, assertP, idx, hloc, h2, h3]
        | ok bs =>
          cases switchingCosts m.switchingModel m.serverTypes with
          | error e => simp [bind, Except.bind, assertP, idx, hloc, h2, h3]
          | ok sc =>
            cases hv : (m.serverTypes.mapM fun st => m.fullCost loc loads.length st >>= finiteCost) with
            | error e =>
              simp only [bind, Except.bind] at hv
              cases (singleLoads loads : Res (List T)) <;>
                simp [bind, Except.bind, assertP, idx, hloc, h2, h3, hv]
            | ok hc =>
              simp only [bind, Except.bind] at hv
              cases (singleLoads loads : Res (List T)) <;>
                simp [bind, Except.bind, assertP, idx, hloc, h2, h3, hv]
      · simp [bind, Except.bind, assertP, idx, hloc, h2, h3]
    · simp [bind, Except.bind, assertP, idx, hloc, h2]
  · simp [bind, Except.bind, assertP, h1]

/-! ## Evaluating an assignment of jobs -/

namespace Complete

/-- A panic or an answer, but no failure. -/
def Calm {α : Type} (r : IRes α) : Prop := ∀ f, r ≠ .error (.failure f)

theorem calm_ok {α : Type} (a : α) : Calm (.ok a : IRes α) := by intro f h; cases h

theorem calm_ofRes {α : Type} (r : Res α) : Calm (IRes.ofRes r) := by
  intro f h
  cases r <;> cases h

theorem calm_bind {α β : Type} (r : IRes α) (g : α → IRes β) (hr : Calm r) (hg : ∀ a, r = .ok a → Calm (g a)) :
    Calm (r >>= g) := by
  intro f h
  cases r with
  | error e =>
    cases e with
    | panic => cases h
    | failure f' => exact hr f' rfl
  | ok a => exact hg a rfl f h

theorem calm_sumM {α ι : Type} [Zero α] [Add α] (f : ι → IRes α) (xs : List ι) (h : ∀ x ∈ xs, Calm (f x)) :
    Calm (sumM (xs.map f)) := by
  induction xs with
  | nil => exact calm_ok _
  | cons x xs ih =>
    exact calm_bind _ _ (h x (by simp)) fun a _ => calm_bind _ _ (ih fun y hy => h y (by simp [hy])) fun b _ => calm_ok _

theorem ok_bind {ε α β : Type} {r : Except ε α} {g : α → Except ε β} {b : β} (h : (r >>= g) = .ok b) :
    ∃ a, r = .ok a ∧ g a = .ok b := by
  cases r with
  | error e => cases h
  | ok a => exact ⟨a, rfl, h⟩

theorem ok_ofRes {α : Type} {r : Res α} {a : α} (h : IRes.ofRes r = .ok a) : r = .ok a := by
  cases r with
  | error e => cases h
  | ok b => cases h; rfl

theorem ok_idx {α : Type} {xs : List α} {i : Nat} {a : α} (h : IRes.ofRes (idx xs i) = .ok a) : xs[i]? = some a :=
  (idx_ok_iff _ _ _).1 (ok_ofRes h)

/-- No jobs at all. -/
def idle (d e : Nat) : LoadFractions := ⟨List.replicate (d * e) 0, d, e⟩

theorem idle_loads (d e k : Nat) (hk : k < d) : (idle d e).selectLoads (List.replicate e 0) k = .ok (List.replicate e 0) := by
  unfold LoadFractions.selectLoads
  rw [mapM_ok_iff, List.forall₂_iff_get]
  refine ⟨by simp [idle], fun i h1 h2 => ?_⟩
  have hi : i < e := by simpa [idle] using h1
  have hg : (idle d e).get k i (List.replicate e 0) = .ok 0 := by
    unfold LoadFractions.get
    rw [if_neg (by simp [idle]; omega)]
    by_cases h : k < d - 1
    · rw [if_pos (by simpa [idle] using h), idx_ok_iff]
      have : k * e + i < d * e := by
        calc k * e + i < k * e + e := by omega
          _ = (k + 1) * e := by ring
          _ ≤ d * e := Nat.mul_le_mul_right _ (by omega)
      simp [idle, this]
    · rw [if_neg (by simpa [idle] using h), if_pos (by simp [idle]; omega), if_neg (by simp)]
  have hl : idx (List.replicate e (0 : ℚ)) i = .ok 0 := by
    rw [idx_ok_iff]; simp [hi]
  simp only [List.get_eq_getElem, List.getElem_range, List.getElem_replicate]
  rw [hl, hg]
  simp [bind, Except.bind]

theorem zeros_sum (e : Nat) : (List.replicate e (0 : ℚ)).sum = 0 := by simp

theorem total_zeros (m : DataCenterModel) (st : ServerType) (e : Nat) (q : ℚ)
    (h : m.totalSubJobs st (List.replicate e 0) = .ok q) : q = 0 := by
  unfold totalSubJobs at h
  obtain ⟨g, h1, h2⟩ := sumM_map_ok h
  subst h2
  have : ∀ (ps : List (Nat × ℚ)) (g : List ℚ), List.Forall₂ (fun q v => (do
      let jt ← idx m.jobTypes (parse m.jobTypes.length q.1).2
      let w ← jt.processingTimeOn st
      (.ok (w * q.2) : Res ℚ)) = .ok v) ps g → (∀ p ∈ ps, p.2 = 0) → g.sum = 0 := by
    intro ps g h
    induction h with
    | nil => intro _; rfl
    | cons a _ ih =>
      intro hz
      rw [List.sum_cons, ih fun p hp => hz p (by simp [hp])]
      obtain ⟨jt, _, a⟩ := ok_bind a
      obtain ⟨w, _, a⟩ := ok_bind a
      rw [hz _ (by simp), mul_zero] at a
      cases a
      norm_num
  refine this _ _ h1 ?_
  intro p hp
  have := List.of_mem_zip hp
  exact (List.mem_replicate.1 this.2).2

/-- An idle slot reports no failure. -/
theorem idle_calm (m : DataCenterModel) (t : Int) (x : Config ℤ) (hx : ∀ v ∈ x, 0 < v) :
    Calm (m.objective t x (List.replicate m.e 0) (idle m.d m.e)) := by
  have hload : ∀ k ls, IRes.ofRes ((idle m.d m.e).selectLoads (List.replicate m.e 0) k) = .ok ls →
      ls = List.replicate m.e 0 := by
    intro k ls h
    have h := ok_ofRes h
    have hk : k < m.d ∨ m.e = 0 := by
      by_contra hc
      push Not at hc
      obtain ⟨y, hy, h0⟩ := mapM_ok_get (i := 0) h (x := 0) (by
        show (List.range m.e)[0]? = some 0
        rw [List.getElem?_range (by omega)])
      obtain ⟨l, _, h0⟩ := ok_bind h0
      obtain ⟨f, h1, _⟩ := ok_bind h0
      unfold LoadFractions.get at h1
      have e : (idle m.d m.e).d = m.d := rfl
      by_cases hd : (idle m.d m.e).d = 0
      · rw [if_pos hd] at h1; cases h1
      · rw [if_neg hd, if_neg (by omega), if_neg (by omega)] at h1; cases h1
    rcases hk with hk | hk
    · rw [idle_loads _ _ _ hk] at h
      cases h; rfl
    · rw [hk] at h ⊢
      simp only [LoadFractions.selectLoads, idle, List.range_zero] at h
      cases h; rfl
  have hpos : ∀ k (v : ℤ), IRes.ofRes (idx x k) = .ok v → 0 < toQ v := by
    intro k v h
    have := hx v (List.mem_of_getElem? (ok_idx h))
    simpa [toQ] using this
  apply calm_sumM
  intro j _
  refine calm_bind _ _ ?_ fun c _ => calm_bind _ _ ?_ fun r _ => calm_ok _
  · refine calm_bind _ _ ?_ fun p _ => calm_bind _ _ (calm_ofRes _) fun loc _ => calm_ofRes _
    apply calm_sumM
    intro k _
    refine calm_bind _ _ (calm_ofRes _) fun st _ => calm_bind _ _ (calm_ofRes _) fun ls _ =>
      calm_bind _ _ (calm_ofRes _) fun w _ => calm_bind _ _ (calm_ofRes _) fun v hv => ?_
    simp only [safeBalancing]
    rw [if_pos (hpos _ v hv)]
    exact calm_ofRes _
  · apply calm_sumM
    intro k _
    refine calm_bind _ _ (calm_ofRes _) fun ls hls => calm_bind _ _ (calm_ofRes _) fun loc _ =>
      calm_bind _ _ (calm_ofRes _) fun st _ => calm_bind _ _ (calm_ofRes _) fun v hv => ?_
    refine calm_bind _ _ (calm_ofRes _) fun w' _ => ?_
    simp only [safeBalancing]
    rw [if_pos (hpos _ v hv)]
    apply calm_sumM
    intro s _
    apply calm_sumM
    intro i _
    refine calm_bind _ _ (calm_ofRes _) fun src _ => calm_bind _ _ (calm_ofRes _) fun jt _ => calm_bind _ _ ?_ fun q _ =>
      calm_bind _ _ (calm_ofRes _) fun l _ => calm_ok _
    refine calm_bind _ _ (calm_ofRes _) fun r _ => calm_bind _ _ (calm_ofRes _) fun w _ => ?_
    have h0 : averageDelay m.delta (ls.sum / toQ v) (meanJobDuration w' ls.sum) = ((0 : ℚ) : ECost) := by
      rw [hload _ _ hls, zeros_sum, zero_div]
      unfold averageDelay
      rw [if_neg (by simp)]
      rfl
    rw [h0]
    exact calm_ofRes _

/-- The network described by a model, with zero for what is missing. -/
def siteOf (m : DataCenterModel) (t : Int) : Site where
  locations := m.locations.length
  types := m.serverTypes.length
  sources := m.sources.length
  jobTypes := m.jobTypes.length
  slot := m.delta
  maxUse := fun k => (m.serverTypes[k]?.map fun st => st.maxUtilization).getD 0
  time := fun i k => match m.jobTypes[i]?, m.serverTypes[k]? with
    | some jt, some st => match jt.processingTimeOn st with
      | .ok w => w
      | .error _ => 0
    | _, _ => 0
  route := fun s j => match m.sources[s]?, m.locations[j]? with
    | some src, some loc => match src.routingDelayTo t loc with
      | .ok w => w
      | .error _ => 0
    | _, _ => 0
  power := fun k u => match m.serverTypes[k]? with
    | some st => match m.consumptionModel.consumption m.delta st u with
      | .ok w => w
      | .error _ => 0
    | none => 0
  price := fun j p => match m.locations[j]? with
    | some loc => match m.energyModel.cost t loc p with
      | .ok w => w
      | .error _ => 0
    | none => 0
  loss := fun i q => match m.jobTypes[i]? with
    | some jt => match revenueLossOf m.lossModel jt q with
      | .ok w => w
      | .error _ => 0
    | none => 0

theorem siteOf_describes (m : DataCenterModel) (t : Int) (h1 : HasPower m) (h2 : HasPrice m) (h3 : HasLoss m)
    (h4 : HasTimes m) (h5 : HasRoutes m t) : Describes m t (siteOf m t) where
  locations := rfl
  types := rfl
  sources := rfl
  jobTypes := rfl
  slot := rfl
  maxUse := by
    intro k st h
    simp [siteOf, h]
  time := by
    intro i jt k st h h'
    obtain ⟨w, hw⟩ := h4 jt (List.mem_of_getElem? h) st (List.mem_of_getElem? h')
    simp [siteOf, h, h', hw]
  route := by
    intro s src j loc h h'
    obtain ⟨w, hw⟩ := h5 src (List.mem_of_getElem? h) loc (List.mem_of_getElem? h')
    simp [siteOf, h, h', hw]
  power := by
    intro k st u h
    obtain ⟨w, hw⟩ := (power_isOk_iff m u).2 h1 st (List.mem_of_getElem? h)
    simp [siteOf, h, hw]
  price := by
    intro j loc p h
    obtain ⟨w, hw⟩ := (price_isOk_iff m t p).2 h2 loc (List.mem_of_getElem? h)
    simp [siteOf, h, hw]
  loss := by
    intro i jt q h
    obtain ⟨w, hw⟩ := h3 jt (List.mem_of_getElem? h)
    have : revenueLossOf m.lossModel jt q = .ok (w.gamma * pos (q - w.delta)) := by
      simp [revenueLossOf, lookup, hw, bind, Except.bind]
    simp [siteOf, h, this]

end Complete
open Complete

/-- **C97** A complete model answers every question about the cost of a slot: whatever numbers of servers are active and
whatever jobs are assigned to them, the cost is a number or a failure of the model is reported. If instead a parameter is
missing, there are questions it panics on. -/
theorem C97_evaluable_iff (m : DataCenterModel) (t : Int) (hslot : 0 < m.delta) (hl : m.locations ≠ [])
    (hst : m.serverTypes ≠ []) (hso : m.sources ≠ []) (hj : m.jobTypes ≠ [])
    (hu : ∀ st ∈ m.serverTypes, 0 ≤ st.maxUtilization)
    (htime : ∀ jt ∈ m.jobTypes, ∀ st ∈ m.serverTypes, ∀ w, jt.processingTimeOn st = .ok w → 0 ≤ w) :
    (∀ (x : Config ℤ) lambda zs, x.length = m.d → SendsLoads m.d m.e lambda zs →
      m.objective t x lambda zs ≠ .error .panic) ↔
    HasPower m ∧ HasPrice m ∧ HasLoss m ∧ HasTimes m ∧ HasRoutes m t := by
  constructor
  · intro h
    have h := h (List.replicate m.d 1) (List.replicate m.e 0) (idle m.d m.e) (by simp) (by
      intro k hk
      exact ⟨_, idle_loads _ _ _ hk, by simp, fun l hl => by simp [(List.mem_replicate.1 hl).2]⟩)
    have hc := idle_calm m t (List.replicate m.d 1) (by simp)
    have hok : ∃ v, m.objective t (List.replicate m.d (1 : ℤ)) (List.replicate m.e 0) (idle m.d m.e) = .ok v := by
      cases hv : m.objective t (List.replicate m.d (1 : ℤ)) (List.replicate m.e 0) (idle m.d m.e) with
      | ok v => exact ⟨v, rfl⟩
      | error e =>
        cases e with
        | panic => exact absurd hv h
        | failure f => exact absurd hv (hc f)
    have hok := (sumM_isOk_iff _ _).1 hok
    have henc : ∀ j k, j < m.locations.length → k < m.serverTypes.length → encode m.serverTypes.length j k < m.d :=
      fun j k hj hk => ((C42_encode_bijective m.locations.length m.serverTypes.length).1 j k hj hk).1
    have hone : ∀ j k (v : ℤ), IRes.ofRes (idx (List.replicate m.d (1 : ℤ)) (encode m.serverTypes.length j k)) = .ok v →
        v = 1 := by
      intro j k v h
      exact (List.mem_replicate.1 (List.mem_of_getElem? (ok_idx h))).2
    have hall : ∀ (j : Nat) (loc : Location), m.locations[j]? = some loc → ∀ (k : Nat) (st : ServerType), m.serverTypes[k]? = some st →
        (∃ c, m.consumptionModel.consumption m.delta st 0 = .ok c) ∧ (∃ p c, m.energyModel.cost t loc p = .ok c) ∧
        ∀ (s : Nat) (src : Source), m.sources[s]? = some src → ∀ (i : Nat) (jt : JobType), m.jobTypes[i]? = some jt →
          (∃ w, src.routingDelayTo t loc = .ok w) ∧ (∃ w, jt.processingTimeOn st = .ok w) ∧
          ∃ q, m.lossModel jt.key = some q := by
      intro j loc hj k st hk
      have hj' := (List.getElem?_eq_some_iff.1 hj).1
      have hk' := (List.getElem?_eq_some_iff.1 hk).1
      have hsel := idle_loads m.d m.e _ (henc j k hj' hk')
      obtain ⟨o, ho⟩ := hok j (List.mem_range.2 hj')
      obtain ⟨c, hc, ho⟩ := ok_bind ho
      obtain ⟨r, hr, _⟩ := ok_bind ho
      obtain ⟨p, hp, hc⟩ := ok_bind hc
      obtain ⟨loc', hloc, hc⟩ := ok_bind hc
      have := ok_idx hloc
      rw [hj] at this
      cases this
      refine ⟨?_, ⟨p, c, ok_ofRes hc⟩, ?_⟩
      · obtain ⟨v, hv⟩ := (sumM_isOk_iff _ _).1 ⟨p, hp⟩ k (List.mem_range.2 hk')
        obtain ⟨st', h1, hv⟩ := ok_bind hv
        have := ok_idx h1
        rw [hk] at this
        cases this
        obtain ⟨ls, h1, hv⟩ := ok_bind hv
        have := ok_ofRes h1
        rw [hsel] at this
        cases this
        obtain ⟨w, h1, hv⟩ := ok_bind hv
        have hw := total_zeros m st _ _ (ok_ofRes h1)
        subst hw
        obtain ⟨n, h1, hv⟩ := ok_bind hv
        have hn := hone _ _ _ h1
        subst hn
        simp only [safeBalancing] at hv
        rw [if_pos (by norm_num [toQ])] at hv
        have hv := ok_ofRes hv
        unfold ServerType.limitUtilization at hv
        rw [if_pos (by rw [zero_div]; exact hu st (List.mem_of_getElem? hk))] at hv
        obtain ⟨q, h1, _⟩ := ok_bind hv
        rw [zero_div] at h1
        exact ⟨q, h1⟩
      · intro s src hs i jt hi
        have hs' := (List.getElem?_eq_some_iff.1 hs).1
        have hi' := (List.getElem?_eq_some_iff.1 hi).1
        obtain ⟨v, hv⟩ := (sumM_isOk_iff _ _).1 ⟨r, hr⟩ k (List.mem_range.2 hk')
        obtain ⟨ls, h1, hv⟩ := ok_bind hv
        have := ok_ofRes h1
        rw [hsel] at this
        cases this
        obtain ⟨loc', h1, hv⟩ := ok_bind hv
        have := ok_idx h1
        rw [hj] at this
        cases this
        obtain ⟨st', h1, hv⟩ := ok_bind hv
        have := ok_idx h1
        rw [hk] at this
        cases this
        obtain ⟨n, h1, hv⟩ := ok_bind hv
        have hn := hone _ _ _ h1
        subst hn
        obtain ⟨w, h1, hv⟩ := ok_bind hv
        simp only [safeBalancing] at hv
        rw [if_pos (by norm_num [toQ])] at hv
        obtain ⟨v', hv'⟩ := (sumM_isOk_iff _ _).1 ⟨v, hv⟩ s (List.mem_range.2 hs')
        obtain ⟨q, hq⟩ := (sumM_isOk_iff _ _).1 ⟨v', hv'⟩ i (List.mem_range.2 hi')
        obtain ⟨src', h1, hq⟩ := ok_bind hq
        have := ok_idx h1
        rw [hs] at this
        cases this
        obtain ⟨jt', h1, hq⟩ := ok_bind hq
        have := ok_idx h1
        rw [hi] at this
        cases this
        obtain ⟨z, hz, _⟩ := ok_bind hq
        obtain ⟨ρ, h1, hz⟩ := ok_bind hz
        obtain ⟨ω, h2, hz⟩ := ok_bind hz
        refine ⟨⟨ρ, ok_ofRes h1⟩, ⟨ω, ok_ofRes h2⟩, ?_⟩
        split at hz
        · cases hz
        · obtain ⟨a, ha, _⟩ := ok_bind (ok_ofRes hz)
          exact (lookup_isOk_iff _ _).1 ⟨a, ha⟩
    obtain ⟨loc₀, hl₀⟩ := List.exists_mem_of_ne_nil _ hl
    obtain ⟨j₀, hl₀⟩ := List.getElem?_of_mem hl₀
    obtain ⟨st₀, hst₀⟩ := List.exists_mem_of_ne_nil _ hst
    obtain ⟨k₀, hst₀⟩ := List.getElem?_of_mem hst₀
    obtain ⟨src₀, hso₀⟩ := List.exists_mem_of_ne_nil _ hso
    obtain ⟨s₀, hso₀⟩ := List.getElem?_of_mem hso₀
    obtain ⟨jt₀, hj₀⟩ := List.exists_mem_of_ne_nil _ hj
    obtain ⟨i₀, hj₀⟩ := List.getElem?_of_mem hj₀
    refine ⟨?_, ?_, ?_, ?_, ?_⟩
    · rw [← power_isOk_iff m 0]
      intro st h
      obtain ⟨k, hk⟩ := List.getElem?_of_mem h
      exact (hall _ _ hl₀ _ _ hk).1
    · intro loc h
      obtain ⟨j, hj⟩ := List.getElem?_of_mem h
      obtain ⟨p, c, hp⟩ := (hall _ _ hj _ _ hst₀).2.1
      unfold EnergyModel.cost at hp
      cases hm : m.energyModel with
      | linear f =>
        rw [hm] at hp
        obtain ⟨a, ha, _⟩ := ok_bind hp
        exact (lookup_isOk_iff _ _).1 ⟨a, ha⟩
      | quotas f =>
        rw [hm] at hp
        obtain ⟨a, ha, _⟩ := ok_bind hp
        exact (lookup_isOk_iff _ _).1 ⟨a, ha⟩
    · intro jt h
      obtain ⟨i, hi⟩ := List.getElem?_of_mem h
      exact ((hall _ _ hl₀ _ _ hst₀).2.2 _ _ hso₀ _ _ hi).2.2
    · intro jt h st h'
      obtain ⟨i, hi⟩ := List.getElem?_of_mem h
      obtain ⟨k, hk⟩ := List.getElem?_of_mem h'
      exact ((hall _ _ hl₀ _ _ hk).2.2 _ _ hso₀ _ _ hi).2.1
    · intro src h loc h'
      obtain ⟨s, hs⟩ := List.getElem?_of_mem h
      obtain ⟨j, hj⟩ := List.getElem?_of_mem h'
      exact ((hall _ _ hj _ _ hst₀).2.2 _ _ hs _ _ hj₀).1
  · rintro ⟨h1, h2, h3, h4, h5⟩ x lambda zs hx hz
    have hD := siteOf_describes m t h1 h2 h3 h4 h5
    have henc : ∀ j k, j < m.locations.length → k < m.serverTypes.length → encode m.serverTypes.length j k < m.d :=
      fun j k hj hk => ((C42_encode_bijective m.locations.length m.serverTypes.length).1 j k hj hk).1
    have hA : Assigned (siteOf m t) x lambda zs (fun j k => ((x.getD (encode m.serverTypes.length j k) 0 : ℤ) : ℚ))
        (fun j k s i => match zs.selectLoads lambda (encode m.serverTypes.length j k) with
          | .ok ls => ls.getD (encode m.jobTypes.length s i) 0
          | .error _ => 0) := by
      refine ⟨?_, ?_, ?_⟩
      · intro j k hj hk
        have := henc j k hj hk
        rw [← hx] at this
        refine ⟨x[encode m.serverTypes.length j k], List.getElem?_eq_getElem this, ?_⟩
        simp [List.getD, toQ, this]
      · intro j k hj hk
        obtain ⟨ls, h1, h2, h3⟩ := hz _ (henc j k hj hk)
        refine ⟨ls, h1, h2, ?_⟩
        intro s i
        simp only [h1]
        rfl
      · intro j k s i hj hk _ _
        obtain ⟨ls, h1, h2, h3⟩ := hz _ (henc j k hj hk)
        simp only [h1]
        rw [List.getD]
        cases hv : ls[encode m.jobTypes.length s i]? with
        | none => simp
        | some l => exact h3 l (List.mem_of_getElem? hv)
    have hC := C70_objective hD hslot (by
      intro i k hi hk
      have hi' := List.getElem?_eq_getElem (l := m.jobTypes) hi
      have hk' := List.getElem?_eq_getElem (l := m.serverTypes) hk
      exact htime _ (List.mem_of_getElem? hi') _ (List.mem_of_getElem? hk') _ (hD.time _ _ _ _ hi' hk')) x lambda zs _ _ hA
    by_cases hf : (siteOf m t).Feasible (fun j k => ((x.getD (encode m.serverTypes.length j k) 0 : ℤ) : ℚ))
        (fun j k s i => match zs.selectLoads lambda (encode m.serverTypes.length j k) with
          | .ok ls => ls.getD (encode m.jobTypes.length s i) 0
          | .error _ => 0)
    · rw [hC.1 hf]; simp
    · obtain ⟨e, he⟩ := hC.2 hf
      rw [he]; simp

/-- The small network of C70 is turned into convex problems. -/
example : HasCounts (smallModel (.linear fun _ => some fun _ => 5)) ∧ HasSwitching (smallModel (.linear fun _ => some fun _ => 5)) :=
  ⟨fun loc h st _ => by
      have : loc = ⟨"a", fun _ => some 4⟩ := List.mem_singleton.1 h
      subst this
      exact ⟨4, rfl⟩,
    fun _ _ => ⟨_, rfl⟩⟩

/-- It answers all questions. -/
example (x : Config ℤ) (lambda : LoadProfile) (zs : LoadFractions) (hx : x.length = 1) (hz : SendsLoads 1 2 lambda zs) :
    (smallModel (.linear fun _ => some fun _ => 5)).objective 1 x lambda zs ≠ .error .panic := by
  refine (C97_evaluable_iff (smallModel (.linear fun _ => some fun _ => 5)) 1 (by norm_num [smallModel])
    (List.cons_ne_nil _ _) (List.cons_ne_nil _ _) (List.cons_ne_nil _ _) (List.cons_ne_nil _ _) ?_ ?_).2
    ⟨fun st _ => ⟨_, rfl⟩, fun loc _ => ⟨_, rfl⟩, fun jt _ => ⟨_, rfl⟩, ?_, ?_⟩ x lambda zs hx hz
  · intro st h
    obtain rfl : st = ⟨"s", 9 / 10⟩ := List.mem_singleton.1 h
    norm_num
  · intro jt h st _ w hw
    rcases List.mem_cons.1 h with rfl | h
    · cases hw; norm_num
    · obtain rfl := List.mem_singleton.1 h
      cases hw; norm_num
  · intro jt h st _
    rcases List.mem_cons.1 h with rfl | h
    · exact ⟨_, rfl⟩
    · obtain rfl := List.mem_singleton.1 h
      exact ⟨_, rfl⟩
  · intro src h loc _
    obtain rfl : src = ⟨"", fun _ _ => .ok 3⟩ := List.mem_singleton.1 h
    exact ⟨_, rfl⟩

/-- Without an energy price there is a question on which it panics. -/
example : ∃ (x : Config ℤ) (lambda : LoadProfile) (zs : LoadFractions), x.length = 1 ∧ SendsLoads 1 2 lambda zs ∧
    (smallModel (.linear fun _ => none)).objective 1 x lambda zs = .error .panic := by
  by_contra hc
  push Not at hc
  have := ((C97_evaluable_iff (smallModel (.linear fun _ => none)) 1 (by norm_num [smallModel])
    (List.cons_ne_nil _ _) (List.cons_ne_nil _ _) (List.cons_ne_nil _ _) (List.cons_ne_nil _ _) (by
      intro st h
      obtain rfl : st = ⟨"s", 9 / 10⟩ := List.mem_singleton.1 h
      norm_num) (by
      intro jt h st _ w hw
      rcases List.mem_cons.1 h with rfl | h
      · cases hw; norm_num
      · obtain rfl := List.mem_singleton.1 h
        cases hw; norm_num)).1 fun x lambda zs hx hz => hc x lambda zs hx hz).2.1
  obtain ⟨q, hq⟩ := this _ (List.mem_singleton.2 rfl)
  cases hq

/-- A model with one type of jobs which is turned into load problems. -/
example (loads : List LoadProfile) (h : ∀ l ∈ loads, l ≠ []) :
    ∃ p : SLO ℤ, DataCenterModel.toSLO { smallModel (.linear fun _ => some fun _ => 5) with
      jobTypes := [⟨"short", fun _ => .ok 1⟩] } loads = .ok p := by
  rw [C97_load_iff _ _ (List.cons_ne_nil _ _)]
  refine ⟨rfl, rfl, rfl, ?_, fun _ _ => ⟨_, rfl⟩, fun _ _ => ⟨_, rfl⟩, fun _ _ => ⟨_, rfl⟩, h⟩
  intro loc hl st _
  obtain rfl : loc = ⟨"a", fun _ => some 4⟩ := List.mem_singleton.1 hl
  exact ⟨4, rfl⟩

end Soco
