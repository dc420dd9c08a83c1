import Verif.Props.Updates

/-!
# C43: whole histories of updates, for every kind of problem
-/

namespace Soco

section
variable {T : Type} [Value T]

/-- **C43** (histories of smoothed convex optimisation). A whole history of updates adds as many slots as there are
updates, each with information for the current slot and the window, and does not change the costs of the slots that
were present before. -/
theorem C43_history_sco (S : Num.Solver) (choose : Nat → List ℚ → Nat → List ℚ) (m : DataCenterModel)
    (inputs : List (List PredictedLoadProfile)) (o o' : Online (SCO T DCSuccess DCFailure))
    (history : List (Int × SingleCostFn (Config T) DCSuccess DCFailure))
    (hh : o.p.hittingCost = CostFn.build history)
    (h : inputs.foldlM (m.updateSCO S choose) o = .ok o') :
    o'.w = o.w ∧ o'.p.d = o.p.d ∧ o'.p.bounds = o.p.bounds ∧ o'.p.switchingCost = o.p.switchingCost ∧
    o'.p.tEnd = o.p.tEnd + inputs.length ∧ (∀ i ∈ inputs, o.w < i.length) ∧
    ∀ t x, t ≤ o.p.tEnd → o'.p.toProb.hitCost t x = o.p.toProb.hitCost t x := by
  induction inputs generalizing o history with
  | nil =>
    rw [List.foldlM_nil] at h
    cases h
    simp
  | cons i is ih =>
    rw [List.foldlM_cons] at h
    by_cases hw : o.w < i.length
    · obtain ⟨o1, h1, h2, h3, h4, h5, h6, h7, h8⟩ := (C43_update_sco S choose m o i history hh).2 hw
      rw [h1] at h
      obtain ⟨a1, a2, a3, a4, a5, a6, a7⟩ := ih o1 _ h8 h
      refine ⟨a1.trans h2, a2.trans h3, a3.trans h4, a4.trans h5, ?_, ?_, ?_⟩
      · rw [a5, h6]; push_cast [List.length_cons]; ring
      · intro j hj
        rcases List.mem_cons.1 hj with rfl | hj
        · exact hw
        · rw [← h2]; exact a6 j hj
      · intro t x ht
        rw [a7 t x (by omega), (h7 t x ht).2.2.2]
    · rw [(C43_update_sco S choose m o i history hh).1 (not_lt.1 hw)] at h
      cases h

variable [FromFloat T]

/-- **C43** (histories of load optimisation). A non-empty history of updates succeeds exactly if there is no window, the
instance has a load for every slot, and each update brings one certain load; then these loads are appended in order and
nothing else changes. -/
theorem C43_history_slo (inputs : List (List PredictedLoadProfile)) (hi : inputs ≠ []) (o o' : Online (SLO T)) :
    inputs.foldlM DataCenterModel.updateSLO o = .ok o' ↔
      o.p.tEnd = o.p.load.length ∧ o.w < 1 ∧ ∃ zs : List ℚ, inputs = zs.map (fun z => [[[z]]]) ∧
      o' = { o with p := { o.p with
        tEnd := o.p.tEnd + zs.length, load := o.p.load ++ zs.map FromFloat.fromFloat } } := by
  induction inputs generalizing o with
  | nil => exact absurd rfl hi
  | cons i is ih =>
    rw [List.foldlM_cons]
    constructor
    · intro h
      cases h1 : DataCenterModel.updateSLO o i with
      | error e => rw [h1] at h; cases h
      | ok o1 =>
        rw [h1] at h
        obtain ⟨a1, a2, z, rfl, rfl⟩ := (C43_update_slo o o1 i).1 h1
        refine ⟨a1, a2, ?_⟩
        by_cases he : is = []
        · subst he
          cases h
          exact ⟨[z], rfl, by simp⟩
        · obtain ⟨b1, b2, zs, rfl, rfl⟩ := (ih he _).1 h
          refine ⟨z :: zs, rfl, ?_⟩
          simp [add_comm, add_left_comm]
    · rintro ⟨a1, a2, zs, a3, rfl⟩
      cases zs with
      | nil => cases a3
      | cons z zs =>
        simp only [List.map_cons, List.cons.injEq] at a3
        obtain ⟨rfl, rfl⟩ := a3
        rw [(C43_update_slo o _ _).2 ⟨a1, a2, z, rfl, rfl⟩]
        by_cases he : zs = []
        · subst he
          simp [bind, Except.bind, pure, Except.pure]
        · simp only [bind, Except.bind]
          refine (ih (by simpa using he) _).2 ⟨by simp [a1], a2, zs, rfl, ?_⟩
          simp [add_comm, add_left_comm]

/-- **C43** (histories of balanced-load optimisation). The same. -/
theorem C43_history_sblo (inputs : List (List PredictedLoadProfile)) (hi : inputs ≠ []) (o o' : Online (SBLO T)) :
    inputs.foldlM DataCenterModel.updateSBLO o = .ok o' ↔
      o.p.tEnd = o.p.load.length ∧ o.w < 1 ∧ ∃ zs : List ℚ, inputs = zs.map (fun z => [[[z]]]) ∧
      o' = { o with p := { o.p with
        tEnd := o.p.tEnd + zs.length, load := o.p.load ++ zs.map FromFloat.fromFloat } } := by
  induction inputs generalizing o with
  | nil => exact absurd rfl hi
  | cons i is ih =>
    rw [List.foldlM_cons]
    constructor
    · intro h
      cases h1 : DataCenterModel.updateSBLO o i with
      | error e => rw [h1] at h; cases h
      | ok o1 =>
        rw [h1] at h
        obtain ⟨a1, a2, z, rfl, rfl⟩ := (C43_update_sblo o o1 i).1 h1
        refine ⟨a1, a2, ?_⟩
        by_cases he : is = []
        · subst he
          cases h
          exact ⟨[z], rfl, by simp⟩
        · obtain ⟨b1, b2, zs, rfl, rfl⟩ := (ih he _).1 h
          refine ⟨z :: zs, rfl, ?_⟩
          simp [add_comm, add_left_comm]
    · rintro ⟨a1, a2, zs, a3, rfl⟩
      cases zs with
      | nil => cases a3
      | cons z zs =>
        simp only [List.map_cons, List.cons.injEq] at a3
        obtain ⟨rfl, rfl⟩ := a3
        rw [(C43_update_sblo o _ _).2 ⟨a1, a2, z, rfl, rfl⟩]
        by_cases he : zs = []
        · subst he
          simp [bind, Except.bind, pure, Except.pure]
        · simp only [bind, Except.bind]
          refine (ih (by simpa using he) _).2 ⟨by simp [a1], a2, zs, rfl, ?_⟩
          simp [add_comm, add_left_comm]

/-- **C43** Histories of load and balanced-load optimisation do not change the costs of the slots that were present
before. -/
theorem C43_history_loads_past (S : Num.Solver) (inputs : List (List PredictedLoadProfile)) :
    (∀ o o' : Online (SLO T), inputs.foldlM DataCenterModel.updateSLO o = .ok o' →
      ∀ t x, t ≤ o.p.tEnd → o'.p.toProb.hitCost t x = o.p.toProb.hitCost t x) ∧
    (∀ o o' : Online (SBLO T), inputs.foldlM DataCenterModel.updateSBLO o = .ok o' →
      ∀ t x, t ≤ o.p.tEnd → (o'.p.toProb S).hitCost t x = (o.p.toProb S).hitCost t x) := by
  constructor
  · intro o o' h t x ht
    by_cases hi : inputs = []
    · subst hi; cases h; rfl
    · obtain ⟨a1, _, zs, _, rfl⟩ := (C43_history_slo inputs hi o o').1 h
      exact (C43_loads_past S o.p ⟨0, 0, [], [], [], []⟩ t x _ _).1 (by omega)
  · intro o o' h t x ht
    by_cases hi : inputs = []
    · subst hi; cases h; rfl
    · obtain ⟨a1, _, zs, _, rfl⟩ := (C43_history_sblo inputs hi o o').1 h
      exact (C43_loads_past S ⟨0, 0, [], [], [], []⟩ o.p t x _ _).2 (by omega)

/-- Two updates of a load problem. -/
example : [[[[(2 : ℚ)]]], [[[5]]]].foldlM DataCenterModel.updateSLO (⟨{ thirds with tEnd := 1 }, 0⟩ : Online (SLO ℤ)) =
    .ok ⟨{ thirds with tEnd := 3, load := [3, 2, 5] }, 0⟩ :=
  (C43_history_slo _ (by simp) _ _).2 ⟨rfl, by decide, [2, 5], rfl, rfl⟩

end

end Soco
