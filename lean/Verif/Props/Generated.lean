import Verif.Props.Replay

/-!
# C75: problems generated from a data center model carry its parameters
-/

namespace Soco
namespace Spec

/-- Dimension `d`, horizon `tEnd`, bounds and switching costs of a problem are those of a network of data centers whose
loads are given for `n` slots. The cost of switching on a server is the cost of the energy consumed meanwhile (migration
`epsilon`, and maximal consumption during the transition time `delta`), the wear `tau` and the risk `rho`. -/
structure Carries {T : Type} [Value T] (m : DataCenterModel) (n : Nat) (d tEnd : Int) (bounds : List T) (β : List ℚ) :
    Prop where
  dims : d = (m.locations.length * m.serverTypes.length : Nat)
  slots : tEnd = n
  servers : ∀ j k loc st, m.locations[j]? = some loc → m.serverTypes[k]? = some st →
    ∃ i : ℤ, loc.m st.key = some i ∧ bounds[j * m.serverTypes.length + k]? = some ((i : ℤ) : T)
  onlyServers : bounds.length = m.locations.length * m.serverTypes.length
  switching : ∀ (k : Nat) (st : ServerType), m.serverTypes[k]? = some st →
    ∃ c, m.switchingModel st.key = some c ∧
      β[k]? = some (c.energyCost * (c.epsilon + c.delta * c.phiMax) + c.tau + c.rho)
  onlyTypes : β.length = m.serverTypes.length

end Spec
open Spec

section
variable {T : Type} [Value T]

theorem carries_of (m : DataCenterModel) (n : Nat) (bs : List T) (hb : m.bounds = .ok bs) (sc : List ℚ)
    (hs : switchingCosts m.switchingModel m.serverTypes = .ok sc) : Carries m n m.d n bs sc where
  dims := by simp [DataCenterModel.d]
  slots := rfl
  servers j k loc st hj hk := (C42_bounds m bs hb).2 j k loc st hj hk
  onlyServers := (C42_bounds m bs hb).1
  switching k st hk := by
    obtain ⟨y, h1, h2⟩ := mapM_ok_get hs hk
    cases hl : m.switchingModel st.key with
    | none => simp [lookup, hl, bind, Except.bind] at h2
    | some c =>
      simp only [lookup, hl, bind, Except.bind, Except.ok.injEq] at h2
      exact ⟨c, rfl, by rw [h1, ← h2]; rfl⟩
  onlyTypes := mapM_ok_length hs

/-- **C75** (convex optimisation) The generated problem carries the parameters of the network, and its hitting cost in slot
`t` is the cost of assigning the load profile of slot `t` to the servers of the configuration. -/
theorem C75_convex (S : Num.Solver) (m : DataCenterModel) (loads : List LoadProfile) (p : SSCO T DCSuccess DCFailure)
    (h : m.toSSCO S loads = .ok p) :
    Carries m loads.length p.d p.tEnd p.bounds p.switchingCost ∧
    (∀ (i : Nat) l, loads[i]? = some l → ∀ x,
      p.hittingCost.callMean (i + 1) x = applyLoads S m.d m.e m.objective l (i + 1) x) ∧
    m.toSCO S loads = .ok p.intoSCO := by
  unfold DataCenterModel.toSCO
  rw [h]
  unfold DataCenterModel.toSSCO at h
  simp only [bind, Except.bind] at h
  cases hb : (m.bounds : Res (List T)) with
  | error e => rw [hb] at h; cases h
  | ok bs =>
    rw [hb] at h
    cases hs : switchingCosts m.switchingModel m.serverTypes with
    | error e => rw [hs] at h; cases h
    | ok sc =>
      rw [hs] at h
      cases h
      refine ⟨carries_of m loads.length bs hb sc hs, ?_, rfl⟩
      intro i l hl x
      simp only
      unfold applyLoadsOverTime
      rw [CostFn.callMean_certain _ _ (by omega)]
      have hi : i < loads.length := (List.getElem?_eq_some_iff.1 hl).1
      have e : access loads (unshiftTime (i + 1) 1) = some l := by
        unfold access unshiftTime
        rw [if_pos (by omega), show ((i : Int) + 1 - 1 + 1 - 1).toNat = i by omega, hl]
      rw [e]

variable [FromFloat T]

theorem singleLoads_get (loads : List LoadProfile) (ls : List T) (h : DataCenterModel.singleLoads loads = .ok ls) :
    ls.length = loads.length ∧ ∀ (i : Nat) l, loads[i]? = some l → ∃ q, l[0]? = some q ∧ ls[i]? = some (FromFloat.fromFloat q) := by
  refine ⟨mapM_ok_length h, ?_⟩
  intro i l hl
  obtain ⟨y, h1, h2⟩ := mapM_ok_get h hl
  cases hq : l[0]? with
  | none => simp [idx, hq, bind, Except.bind] at h2
  | some q =>
    simp only [idx, hq, bind, Except.bind, Except.ok.injEq] at h2
    exact ⟨q, rfl, by rw [h1, h2]⟩

/-- **C75** (balanced loads) The generated problem carries the parameters of the network, which has a single location,
source and job type. The load of a slot is the number of jobs of that slot, converted to the type of configurations. The
servers of type `k` have the cost of a server of that type (`C71_server_cost`). -/
theorem C75_balanced_partial (m : DataCenterModel) (loads : List LoadProfile) (p : SBLO T) (h : m.toSBLO loads = .ok p) :
    (∃ loc, m.locations = [loc] ∧ m.sources.length = 1 ∧ m.jobTypes.length = 1 ∧
      p.hittingCost.length = m.serverTypes.length ∧
      ∀ (k : Nat) st, m.serverTypes[k]? = some st → p.hittingCost[k]? = some (m.serverCost loc st)) ∧
    Carries m loads.length p.d p.tEnd p.bounds p.switchingCost ∧
    p.load.length = loads.length ∧
    ∀ (i : Nat) l, loads[i]? = some l → ∃ q, l[0]? = some q ∧ p.load[i]? = some (FromFloat.fromFloat q) := by
  unfold DataCenterModel.toSBLO at h
  simp only [bind, Except.bind, assertP] at h
  by_cases h1 : m.locations.length = 1
  · obtain ⟨loc, hloc⟩ := List.length_eq_one_iff.1 h1
    by_cases h2 : m.sources.length = 1
    · by_cases h3 : m.jobTypes.length = 1
      · simp only [h1, h2, h3, hloc, beq_self_eq_true, if_true, idx, List.getElem?_cons_zero, List.length_singleton] at h
        cases hb : (m.bounds : Res (List T)) with
        | error e => rw [hb] at h; cases h
        | ok bs =>
          rw [hb] at h
          cases hs : switchingCosts m.switchingModel m.serverTypes with
          | error e => rw [hs] at h; cases h
          | ok sc =>
            rw [hs] at h
            cases hl : (DataCenterModel.singleLoads loads : Res (List T)) with
            | error e => rw [hl] at h; cases h
            | ok ls =>
              rw [hl] at h
              cases h
              obtain ⟨h4, h5⟩ := singleLoads_get loads ls hl
              exact ⟨⟨loc, hloc, h2, h3, by simp, fun k st hk => by simp [hk]⟩,
                carries_of m loads.length bs hb sc hs, h4, h5⟩
      · simp [h1, h2, h3, hloc, idx] at h
    · simp [h1, h2, hloc, idx] at h
  · simp [h1] at h

/-- **C75** (loads) The generated problem carries the parameters of the network, and the loads. The servers of type `k` have
the finite average cost of a server of that type under full load (see `C57_average_partial`). -/
theorem C75_load_partial (m : DataCenterModel) (loads : List LoadProfile) (p : SLO T) (h : m.toSLO loads = .ok p) :
    (∃ loc, m.locations = [loc] ∧ m.sources.length = 1 ∧ m.jobTypes.length = 1 ∧
      p.hittingCost.length = m.serverTypes.length ∧
      ∀ (k : Nat) st, m.serverTypes[k]? = some st →
        ∃ v : ℚ, m.fullCost loc loads.length st = .ok (v : ECost) ∧ p.hittingCost[k]? = some v) ∧
    Carries m loads.length p.d p.tEnd p.bounds p.switchingCost ∧
    p.load.length = loads.length ∧
    ∀ (i : Nat) l, loads[i]? = some l → ∃ q, l[0]? = some q ∧ p.load[i]? = some (FromFloat.fromFloat q) := by
  unfold DataCenterModel.toSLO at h
  simp only [bind, Except.bind, assertP] at h
  by_cases h1 : m.locations.length = 1
  · obtain ⟨loc, hloc⟩ := List.length_eq_one_iff.1 h1
    by_cases h2 : m.sources.length = 1
    · by_cases h3 : m.jobTypes.length = 1
      · simp only [h1, h2, h3, hloc, beq_self_eq_true, if_true, idx, List.getElem?_cons_zero, List.length_singleton] at h
        cases hb : (m.bounds : Res (List T)) with
        | error e => rw [hb] at h; cases h
        | ok bs =>
          rw [hb] at h
          cases hs : switchingCosts m.switchingModel m.serverTypes with
          | error e => rw [hs] at h; cases h
          | ok sc =>
            rw [hs] at h
            simp only at h
            split at h
            · cases h
            · rename_i hcs hhc
              cases hl : (DataCenterModel.singleLoads loads : Res (List T)) with
              | error e => rw [hl] at h; cases h
              | ok ls =>
                rw [hl] at h
                cases h
                obtain ⟨h4, h5⟩ := singleLoads_get loads ls hl
                refine ⟨⟨loc, hloc, h2, h3, mapM_ok_length hhc, ?_⟩, carries_of m loads.length bs hb sc hs, h4, h5⟩
                intro k st hk
                obtain ⟨y, e1, e2⟩ := mapM_ok_get hhc hk
                cases hfc : m.fullCost loc loads.length st with
                | error e => rw [hfc] at e2; cases e2
                | ok c =>
                  rw [hfc] at e2
                  cases c using WithTop.recTopCoe with
                  | top => cases e2
                  | coe v =>
                    have : y = v := by
                      have e3 : (.ok v : Res ℚ) = .ok y := e2
                      cases e3
                      rfl
                    subst this
                    exact ⟨y, rfl, e1⟩
      · simp [h1, h2, h3, hloc, idx] at h
    · simp [h1, h2, hloc, idx] at h
  · simp [h1] at h

end

/-- **C75** Fractional problems carry the loads exactly, and integral problems carry integral loads exactly. -/
theorem C75_exact_loads (q : ℚ) (z : ℤ) : (FromFloat.fromFloat q : ℚ) = q ∧ (FromFloat.fromFloat ((z : ℤ) : ℚ) : ℤ) = z := by
  refine ⟨rfl, ?_⟩
  show (if (0 : ℚ) ≤ z then ⌊(z : ℚ)⌋ else ⌈(z : ℚ)⌉) = z
  split <;> simp

/-- Fractional loads of integral problems are truncated: of 19/10 jobs the generated integral problem keeps one. -/
theorem C75_truncated_counterexample :
    ∃ (p : SBLO ℤ) (q : SBLO ℚ), risingPrices.toSBLO [[19 / 10]] = .ok p ∧ risingPrices.toSBLO [[19 / 10]] = .ok q ∧
      p.load = [1] ∧ q.load = [19 / 10] :=
  ⟨_, _, rfl, rfl, by decide +kernel, by decide +kernel⟩

example : ∃ p : SBLO ℤ, risingPrices.toSBLO [[1], [3]] = .ok p ∧ p.load = [1, 3] ∧ p.switchingCost = [2] ∧ p.bounds = [4] :=
  ⟨_, rfl, by decide +kernel, by decide +kernel, by decide +kernel⟩

example : ∃ p : SLO ℚ, risingPrices.toSLO [[1], [3]] = .ok p ∧ p.load = [1, 3] ∧ p.switchingCost = [2] :=
  ⟨_, rfl, by decide +kernel, by decide +kernel⟩

example (S : Num.Solver) : ∃ p : SSCO ℤ DCSuccess DCFailure, risingPrices.toSSCO S [[1], [3]] = .ok p ∧ p.switchingCost = [2] :=
  ⟨_, rfl, by
    show [SwitchingCost.switchingCost ⟨1, 1, 2, 0, 1, 0, 0⟩] = [2]
    decide +kernel⟩

end Soco
