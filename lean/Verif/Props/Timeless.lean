import Verif.Spec.Timeless
import Verif.Props.Restart
import Verif.Props.Reverse

/-!
# C122: data centers built from constants
-/

namespace Soco

variable {T : Type} [Value T]

theorem Timeless.source {s : Source} (h : Spec.ConstSource s) (t t' : Int) (loc : Location) :
    s.routingDelayTo t loc = s.routingDelayTo t' loc := by
  rcases h with rfl | ⟨key, delays, rfl⟩ | ⟨key, delay, rfl⟩ <;> rfl

theorem Timeless.prices {e : EnergyModel} (h : Spec.ConstPrices e) (t t' : Int) (loc : Location) (p : ECost) :
    e.cost t loc p = e.cost t' loc p := by
  obtain ⟨prices, rfl⟩ := h
  simp only [EnergyModel.cost, lookup]
  cases prices loc.key <;> rfl

theorem Timeless.idx_mem {α : Type} {l : List α} {i : Nat} {a : α} (h : idx l i = .ok a) : a ∈ l := by
  unfold idx at h
  split at h
  · cases Except.ok.inj h
    exact List.mem_of_getElem? (by assumption)
  · cases h

/-- **C122** (costs of a slot). In a model built from constants a configuration costs the same in all slots with the same loads. -/
theorem C122_objective (m : DataCenterModel) (h : Spec.Timeless m) (t t' : Int) (x : Config T) (lambda : LoadProfile)
    (zs : LoadFractions) : m.objective t x lambda zs = m.objective t' x lambda zs := by
  have h1 : ∀ loc st n w loads s i, m.lossTerm t loc st n w loads s i = m.lossTerm t' loc st n w loads s i := by
    intro loc st n w loads s i
    unfold DataCenterModel.lossTerm
    rcases hs : idx m.sources s with e | src
    · rfl
    · have := Timeless.source (h.1 src (Timeless.idx_mem hs)) t t' loc
      simp only [DataCenterModel.revenueLoss, IRes.ofRes, bind, Except.bind, this]
  have h2 : ∀ j, m.typeLoss t j x lambda zs = m.typeLoss t' j x lambda zs := by
    intro j
    funext k
    simp only [DataCenterModel.typeLoss, DataCenterModel.overallRevenueLoss, h1]
  unfold DataCenterModel.objective
  congr 2
  funext j
  simp only [DataCenterModel.locationObjective, DataCenterModel.energyCost, h2, Timeless.prices h.2 t t']

theorem Timeless.shape {S : Num.Solver} {m : DataCenterModel} {loads : List LoadProfile} {p : SSCO T DCSuccess DCFailure}
    (hp : m.toSSCO S loads = .ok p) : ∃ bs sc, ∀ ls, m.toSSCO S (T := T) ls =
      .ok ⟨m.d, ls.length, bs, sc, applyLoadsOverTime S m.d m.e m.objective ls 1⟩ := by
  unfold DataCenterModel.toSSCO at hp
  simp only [bind, Except.bind] at hp
  split at hp
  · cases hp
  rename_i bs hbs
  split at hp
  · cases hp
  rename_i sc hsc
  exact ⟨bs, sc, fun ls => by simp only [DataCenterModel.toSSCO, bind, Except.bind, hbs, hsc]⟩

/-- **C122** (generated problems). In the problems generated from a model built from constants a configuration costs the same in all
slots with the same loads, within one problem and in different problems. -/
theorem C122_hitting (S : Num.Solver) (m : DataCenterModel) (h : Spec.Timeless m) (loads loads' : List LoadProfile)
    (p p' : SSCO T DCSuccess DCFailure) (hp : m.toSSCO S loads = .ok p) (hp' : m.toSSCO S loads' = .ok p')
    (t t' : Int) (h1 : 1 ≤ t) (h1' : 1 ≤ t') (hl : access loads t = access loads' t') (x : Config T) :
    p.toProb.hitCost t x = p'.toProb.hitCost t' x := by
  obtain ⟨bs, sc, hs⟩ := Timeless.shape hp
  rw [hs] at hp hp'
  cases Except.ok.inj hp
  cases Except.ok.inj hp'
  have hu : ∀ t : Int, unshiftTime t 1 = t := fun t => by unfold unshiftTime; omega
  have key : (applyLoadsOverTime S m.d m.e m.objective loads 1).callMean t x =
      (applyLoadsOverTime S m.d m.e m.objective loads' 1).callMean t' x := by
    unfold applyLoadsOverTime
    rw [CostFn.callMean_certain _ t h1, CostFn.callMean_certain _ t' h1', hu, hu, hl]
    cases access loads' t' with
    | none => rfl
    | some lambda =>
      have hobj : m.objective (T := T) t x lambda = m.objective t' x lambda := funext fun zs => C122_objective m h t t' x lambda zs
      have hso : solverObjective m.d m.e m.objective lambda t x = solverObjective m.d m.e m.objective lambda t' x := by
        funext zs
        simp only [solverObjective, hobj]
      simp only [applyLoads, hso, hobj]
  simp only [SSCO.toProb, CostFn.callMeanWithinBounds, key]

/-- **C122** (backwards). For a model built from constants, a day and the same day backwards cost the same: the optimal plans of
the graph search have equal costs, and each of them, reversed, is an optimal plan for the other day. -/
theorem C122_backwards (S : Num.Solver) (m : DataCenterModel) (h : Spec.Timeless m) (loads : List LoadProfile)
    (p : SSCO ℤ DCSuccess DCFailure) (hp : m.toSSCO S loads = .ok p) (hv : p.verify = .ok ()) (hT : loads ≠ [])
    (hd : ∀ t : Int, 1 ≤ t → t ≤ p.tEnd → ∀ x, Spec.InBox p.bounds x → ∃ c, p.toProb.hitCost t x = .ok c)
    (hfin : ∀ t : Int, 1 ≤ t → t ≤ p.tEnd → ∀ c, p.toProb.hitCost t p.bounds = .ok c → c.cost ≠ ⊤)
    (o : OfflineOptions) (hl : o.l = none) (hα : 0 ≤ o.alpha) :
    ∃ p' r r', m.toSSCO S loads.reverse = .ok p' ∧ Multi.optimalGraphSearch p none o = .ok r ∧
      Multi.optimalGraphSearch p' none o = .ok r' ∧ r'.path.cost = r.path.cost ∧
      (∃ out, p'.toProb.alphaUnfairObjective r.path.xs.reverse o.alpha = .ok ⟨r'.path.cost, out⟩) ∧
      (∃ out, p.toProb.alphaUnfairObjective r'.path.xs.reverse o.alpha = .ok ⟨r.path.cost, out⟩) := by
  obtain ⟨bs, sc, hs⟩ := Timeless.shape hp
  have hp' := hs loads.reverse
  have hpp := hp
  rw [hs] at hpp
  have e := Except.ok.inj hpp
  have hpos : 0 < loads.length := List.length_pos_iff.2 hT
  have e1 : p.tEnd = loads.length := by rw [← e]
  have hr : Spec.Reversed p ⟨m.d, loads.reverse.length, bs, sc, applyLoadsOverTime S m.d m.e m.objective loads.reverse 1⟩ := by
    refine ⟨by rw [← e], by rw [e1]; simp, by rw [← e], by rw [← e], fun t t1 t2 x hx => ?_⟩
    obtain ⟨c, hc⟩ := hd (p.tEnd + 1 - t) (by omega) (by omega) x hx
    refine ⟨c, c, hc, ?_, rfl⟩
    rw [← hc]
    refine C122_hitting S m h loads.reverse loads _ p hp' hp t (p.tEnd + 1 - t) t1 (by omega) ?_ x
    unfold access
    rw [if_pos ⟨t1, by rw [List.length_reverse]; omega⟩, if_pos ⟨by omega, by omega⟩, List.getElem?_reverse (by omega)]
    congr 1
    omega
  obtain ⟨r, r', h1, h2, h3, h4, h5⟩ := C111_several_dimensions p _ hr hv (by omega) o hl hα hfin
  exact ⟨_, r, r', hp', h1, h2, h3, h4, h5⟩

/-- **C122** (backwards, one type of servers). For a data center with one type of servers built from constants the plan for the same day
backwards is the plan backwards. -/
theorem C122_single_type (S : Num.Solver) (hS : Spec.SolvesEmpty S) (m : DataCenterModel) (h : Spec.Timeless m) (F : Spec.Farm)
    (hm : Spec.IsFarm m F) (hF : F.Valid) (loads : List ℚ) (hl : ∀ l ∈ loads, F.Carries l) (o : OfflineOptions) (ho : o.l = none)
    (hi : o.inverted = false) (hα : 0 ≤ o.alpha) :
    ∃ (p p' : SSCO ℤ DCSuccess DCFailure) (P P' : Path ), m.toSSCO S (loads.map fun l => [l]) = .ok p ∧
      m.toSSCO S (loads.reverse.map fun l => [l]) = .ok p' ∧ Uni.optimalGraphSearch p 0 o = .ok P ∧
      Uni.optimalGraphSearch p' 0 o = .ok P' ∧ P'.xs = P.xs.reverse ∧ P'.cost = P.cost := by
  obtain ⟨p, hp, I⟩ := C87_problem S hS m F hm hF loads fun l hm => (hl l hm).1
  obtain ⟨p', hp', I'⟩ := C87_problem S hS m F hm hF loads.reverse fun l hm => (hl l (List.mem_reverse.1 hm)).1
  have K := C87_convex F hF loads hl
  rw [List.length_reverse] at I'
  obtain ⟨P, P', h1, h2, h3, h4⟩ := C111_one_dimension I I' K (by
    intro t t1 t2 j j0 jm
    obtain ⟨out, a⟩ := I.hit (loads.length + 1 - t) (by omega) (by omega) j j0 jm
    obtain ⟨out', b⟩ := I'.hit t t1 t2 j j0 jm
    have e := C122_hitting S m h _ _ p' p hp' hp t (loads.length + 1 - t) t1 (by omega) (by
      unfold access
      rw [List.map_reverse, if_pos ⟨t1, by simpa using t2⟩, if_pos ⟨by omega, by rw [List.length_map]; omega⟩,
        List.getElem?_reverse (by rw [List.length_map]; omega), List.length_map]
      congr 1
      omega) [j]
    rw [a, b] at e
    exact congrArg Cost.cost (Except.ok.inj e)) o ho hi hα
  exact ⟨p, p', P, P', hp, hp', h1, h2, h3, h4⟩

theorem Timeless.sum_const (c : ECost) : ∀ n : Nat, sumM ((List.range n).map fun _ => (.ok c : Res ECost)) = .ok (n • c) := by
  intro n
  rw [List.map_const', List.length_range]
  induction n with
  | zero => simp [sumM]
  | succ n ih =>
    rw [List.replicate_succ, sumM, ih]
    simp only [bind, Except.bind]
    rw [succ_nsmul']

/-- **C122** (average costs). The average cost of a server does not depend on the number of slots. -/
theorem C122_average (m : DataCenterModel) (h : Spec.Timeless m) (loc : Location) (st : ServerType) (n n' : Nat) :
    m.fullCost loc n st = m.fullCost loc n' st := by
  suffices key : ∀ n, m.fullCost loc n st = m.fullCost loc 0 st by rw [key n, key n']
  intro n
  unfold DataCenterModel.fullCost
  rcases m.consumptionModel.consumption m.delta st 1 with e | q
  · rfl
  simp only [bind, Except.bind, Timeless.prices h.2 _ 1]
  rcases Nat.eq_zero_or_pos n with rfl | hn
  · rfl
  rw [if_pos hn, if_neg (lt_irrefl 0)]
  obtain ⟨prices, hp⟩ := h.2
  rw [hp]
  simp only [EnergyModel.cost, lookup]
  rcases prices loc.key with _ | c
  · obtain ⟨k, rfl⟩ : ∃ k, n = k + 1 := ⟨n - 1, by omega⟩
    rw [List.range_succ_eq_map]
    rfl
  · simp only [Option.map_some, bind, Except.bind]
    rw [Timeless.sum_const]
    simp only
    congr 1
    have : n • (ECost.mulQ (linearFromConst c 1) (q : ECost)) = (((n : ℚ) * (c * q) : ℚ) : ECost) := by
      rw [← nsmul_eq_mul]
      exact (WithTop.coe_nsmul (c * q) n).symm
    rw [this]
    have hn' : (n : ℚ) ≠ 0 := by exact_mod_cast hn.ne'
    show (((n : ℚ) * (c * q) / n : ℚ) : ECost) = ((c * q : ℚ) : ECost)
    rw [mul_div_cancel_left₀ _ hn']

/-- Load problems generated from a model built from constants differ in their loads only. -/
theorem Timeless.load_problem (m : DataCenterModel) (h : Spec.Timeless m) (loads loads' : List LoadProfile) (p p' : SLO ℤ)
    (hp : m.toSLO loads = .ok p) (hp' : m.toSLO loads' = .ok p') :
    p'.bounds = p.bounds ∧ p'.switchingCost = p.switchingCost ∧ p'.hittingCost = p.hittingCost := by
  have hf : (fun (loc : Location) (st : ServerType) => m.fullCost loc loads'.length st) = fun loc st => m.fullCost loc loads.length st :=
    funext fun loc => funext fun st => C122_average m h loc st _ _
  have hf' := fun loc st => congrFun (congrFun hf loc) st
  unfold DataCenterModel.toSLO at hp hp'
  simp only [hf'] at hp'
  simp only [bind, Except.bind] at hp hp'
  split at hp
  · cases hp
  rename_i e1
  rw [e1] at hp'
  split at hp
  · cases hp
  rename_i e2
  rw [e2] at hp'
  split at hp
  · cases hp
  rename_i e3
  rw [e3] at hp'
  split at hp
  · cases hp
  rename_i e4
  rw [e4] at hp'
  split at hp
  · cases hp
  rename_i e5
  rw [e5] at hp'
  split at hp
  · cases hp
  rename_i e6
  rw [e6] at hp'
  split at hp
  · cases hp
  rename_i e7
  simp only at hp'
  rw [e7] at hp'
  split at hp
  · cases hp
  simp only at hp'
  split at hp'
  · cases hp'
  cases Except.ok.inj hp
  cases Except.ok.inj hp'
  exact ⟨rfl, rfl, rfl⟩

/-- **C122** (restarts). For a model built from constants, a service using lazy budgeting is restored after a crash by starting it again
with all loads so far (the part of C119 which is false for changing prices). -/
theorem C122_restart (S : Num.Solver) (hS : Spec.Shaped S) (hE : Spec.SolvesEmpty S) (randomized : Bool) (gamma : ℚ)
    (hg : 0 ≤ gamma) (m : DataCenterModel) (h : Spec.Timeless m) (past seen rest : List ℤ) (p0 p1 : SLO ℤ)
    (h0 : m.toSLO (past.map fun l : ℤ => [(l : ℚ)]) = .ok p0) (h1 : m.toSLO ((past ++ seen).map fun l : ℤ => [(l : ℚ)]) = .ok p1)
    (n : ℤ) (c β : ℚ) (hb : p0.bounds = [n]) (hh : p0.hittingCost = [c]) (hs : p0.switchingCost = [β])
    (hn : 0 < n) (hc : 0 < c) (hβ : 0 < β) (hl : ∀ l ∈ past ++ (seen ++ rest), 0 ≤ l ∧ l ≤ n) :
    ∃ (fuel fuel' : Nat) (first second : OfflineResponse ℤ Lb.Memory (Cost Unit DCFailure))
        (rs rs' : List (OnlineResponse ℤ Lb.Memory (Cost Unit DCFailure))),
      -- the first service
      prepare lazyService (Lb.alg S gamma randomized) 0 fuel p0 = some (.ok (⟨p0, 0⟩, first)) ∧
      serve lazyService (Lb.alg S gamma randomized) DataCenterModel.updateSLO ⟨⟨p0, 0⟩, first.xs, first.m⟩
        ((seen ++ rest).map fun l : ℤ => some [[[(l : ℚ)]]]) = rs.map .ok ∧
      rs.length = seen.length + rest.length ∧
      -- the second service
      prepare lazyService (Lb.alg S gamma randomized) 0 fuel' p1 = some (.ok (⟨p1, 0⟩, second)) ∧
      serve lazyService (Lb.alg S gamma randomized) DataCenterModel.updateSLO ⟨⟨p1, 0⟩, second.xs, second.m⟩
        (rest.map fun l : ℤ => some [[[(l : ℚ)]]]) = rs'.map .ok ∧
      rs'.length = rest.length ∧
      -- agree
      second.xs = first.xs ++ (rs.take seen.length).map (·.x) ∧
      rs'.map (fun r => (r.x, r.intX, r.cost.cost)) = (rs.drop seen.length).map (fun r => (r.x, r.intX, r.cost.cost)) := by
  obtain ⟨e1, e2, e3⟩ := Timeless.load_problem m h _ _ p0 p1 h0 h1
  exact C119_lazy_budgeting_partial S hS hE randomized gamma hg m past seen rest p0 p1 h0 h1 n c β hb hh hs (e1.trans hb) (e3.trans hh)
    (e2.trans hs) hn hc hβ hl

/-- **C122** (normalised switching costs). The normalised switching cost of a server type, times what an idle server of this type costs in a
slot, is its switching cost. -/
theorem C122_normalized (sw : String → Option SwitchingCost) (delta : ℚ) : ∀ (sts : List ServerType) (ns bs : List ℚ),
    normalizedSwitchingCosts sw delta sts = .ok ns → switchingCosts sw sts = .ok bs →
    ns.length = sts.length ∧ bs.length = sts.length ∧
    ∀ (k : Nat) (st : ServerType) (b ν : ℚ), sts[k]? = some st → bs[k]? = some b → ns[k]? = some ν →
      ∃ c, sw st.key = some c ∧ (c.energyCost * delta * c.phiMin ≠ 0 → ν * (c.energyCost * delta * c.phiMin) = b) := by
  intro sts
  induction sts with
  | nil =>
    intro ns bs h1 h2
    cases Except.ok.inj h1
    cases Except.ok.inj h2
    exact ⟨rfl, rfl, fun k st b ν h => by simp at h⟩
  | cons s sts ih =>
    intro ns bs h1 h2
    simp only [normalizedSwitchingCosts, switchingCosts, List.mapM_cons, lookup, bind, Except.bind, pure, Except.pure] at h1 h2
    rcases hc : sw s.key with _ | c
    · rw [hc] at h1; cases h1
    rw [hc] at h1 h2
    simp only at h1 h2
    split at h1
    · cases h1
    rename_i ns' hns
    split at h2
    · cases h2
    rename_i bs' hbs
    cases Except.ok.inj h1
    cases Except.ok.inj h2
    obtain ⟨l1, l2, h3⟩ := ih ns' bs' (by simpa [normalizedSwitchingCosts, lookup, bind, Except.bind] using hns)
      (by simpa [switchingCosts, lookup, bind, Except.bind] using hbs)
    refine ⟨by simp [l1], by simp [l2], ?_⟩
    intro k st b ν h4 h5 h6
    rcases k with _ | k
    · simp only [List.getElem?_cons_zero, Option.some.injEq] at h4 h5 h6
      subst h4 h5 h6
      exact ⟨c, hc, fun hne => div_mul_cancel₀ _ hne⟩
    · simp only [List.getElem?_cons_succ] at h4 h5 h6
      exact h3 k st b ν h4 h5 h6

theorem Ex.rent_timeless : Spec.Timeless Ex.rentModel :=
  ⟨by
    intro s hs
    rw [List.mem_singleton.1 hs]
    exact .inr (.inr ⟨"", 0, rfl⟩), fun _ => some 1, rfl⟩

/-- C122 applies to a data center with constant prices. -/
example := C122_restart Offline.lazySolver Lb.lazySolver_ok.1 Lb.lazySolver_ok.2 false 1 (by decide) Ex.rentModel Ex.rent_timeless
  [2, 0] [1, 0] [0, 3] Ex.rentInstance _ Ex.rent_is rfl 4 3 6 rfl rfl rfl (by decide) (by decide) (by decide) (by decide)

/-- The data center of `Ex.farm` with constant prices. -/
def Ex.flatFarm : Spec.Farm := { Ex.farm with price := fun _ => 1 }

/-- Its model. -/
def Ex.flatModel : DataCenterModel := { Ex.farmModel with
  sources := [Source.fromConst "" (1 / 4)]
  jobTypes := [JobType.fromConst "i" (1 / 2)]
  energyModel := .linear fun _ => some (linearFromConst 1) }

theorem Ex.flat_is : Spec.IsFarm Ex.flatModel Ex.flatFarm :=
  ⟨_, _, _, _, rfl, rfl, rfl, rfl, rfl, rfl, rfl, fun _ _ => rfl, fun u => by
    simp only [Ex.flatModel, Ex.farmModel, ConsumptionModel.consumption, lookup, bind, Except.bind, Ex.flatFarm, Ex.farm]
    congr 1
    ring, fun t p _ => rfl, rfl, ⟨_, rfl, by norm_num [SwitchingCost.switchingCost, Ex.farm, Ex.flatFarm]⟩, rfl⟩

theorem Ex.flat_valid : Ex.flatFarm.Valid where
  servers := by decide
  slot := by norm_num [Ex.flatFarm, Ex.farm]
  time := by norm_num [Ex.flatFarm, Ex.farm]
  price t _ := by norm_num [Ex.flatFarm]
  gamma := by norm_num [Ex.flatFarm, Ex.farm]
  switching := by norm_num [Ex.flatFarm, Ex.farm]
  power u hu := by simp only [Ex.flatFarm, Ex.farm]; linarith
  convex u v _ _ a _ _ := by simp only [Ex.flatFarm, Ex.farm]; linarith

theorem Ex.flat_timeless : Spec.Timeless Ex.flatModel :=
  ⟨by
    intro s hs
    rw [List.mem_singleton.1 hs]
    exact .inr (.inr ⟨"", 1 / 4, rfl⟩), fun _ => some 1, rfl⟩

example (S : Num.Solver) (hS : Spec.SolvesEmpty S) := C122_single_type S hS Ex.flatModel Ex.flat_timeless Ex.flatFarm Ex.flat_is
  Ex.flat_valid [3, 0, 7, 2] Ex.farm_carries ⟨false, 1, none⟩ rfl rfl (by norm_num)

/-- C122 (backwards) applies to this data center. -/
example (S : Num.Solver) (hS : Spec.SolvesEmpty S) : ∃ p, ∃ _ : Ex.flatModel.toSSCO S ([3, 0, 7, 2].map fun l => [l]) = .ok p,
    ∃ p' r r', Ex.flatModel.toSSCO S ([3, 0, 7, 2].map fun l => [l]).reverse = .ok p' ∧
      Multi.optimalGraphSearch p none ⟨false, 1, none⟩ = .ok r ∧ Multi.optimalGraphSearch p' none ⟨false, 1, none⟩ = .ok r' ∧
      r'.path.cost = r.path.cost := by
  obtain ⟨p, hp, I⟩ := C87_problem S hS Ex.flatModel Ex.flatFarm Ex.flat_is Ex.flat_valid [3, 0, 7, 2]
    fun l hm => (Ex.farm_carries l hm).1
  have K := C87_convex Ex.flatFarm Ex.flat_valid [3, 0, 7, 2] Ex.farm_carries
  have hv : p.verify = .ok () := (C10_ssco_verify_exact p).1 ⟨by rw [I.d]; decide, by rw [I.tEnd]; decide, by rw [I.bounds, I.d]; rfl,
    by rw [I.switching, I.d]; rfl, by rw [I.bounds]; simpa using K.hm, by rw [I.switching]; simpa using K.hβ⟩
  obtain ⟨p', r, r', h1, h2, h3, h4, -⟩ := C122_backwards S Ex.flatModel Ex.flat_timeless _ p hp hv (by simp)
    (by
      intro t t1 t2 x hx
      rw [I.bounds] at hx
      rw [I.tEnd] at t2
      obtain ⟨j, rfl, j0, jm⟩ : ∃ j, x = [j] ∧ 0 ≤ j ∧ j ≤ (4 : ℤ) := by
        cases hx with
        | cons h hn =>
          cases hn
          exact ⟨_, rfl, h.1, h.2⟩
      obtain ⟨out, h⟩ := I.hit t t1 t2 j j0 jm
      exact ⟨_, h⟩)
    (by
      intro t t1 t2 c hc
      rw [I.tEnd] at t2
      obtain ⟨out, h⟩ := I.hit t t1 t2 4 (by norm_num) (by decide)
      rw [I.bounds] at hc
      rw [show Ex.flatFarm.servers = 4 from rfl, h] at hc
      cases Except.ok.inj hc
      exact K.fin t t1 t2) ⟨false, 1, none⟩ rfl (by norm_num)
  exact ⟨p, hp, p', r, r', h1, h2, h3, h4⟩

end Soco
