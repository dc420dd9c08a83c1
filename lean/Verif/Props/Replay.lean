import Verif.Props.Updates
import Mathlib.Algebra.BigOperators.Group.List.Basic
import Mathlib.Tactic.FieldSimp

/-!
# C54, C57: offline instances, replayed online instances and averaged costs
-/

namespace Soco

/-! ## C54 -/

section
variable {T : Type} [Value T]

theorem callPredictive_singleton {X C D : Type} [OutSuccess C] [OutFailure D] (fs : CostFn X C D) (t : Int) (x : X)
    (s : Int) (f : SingleCostFn X C D) (hg : fs.get t = .ok (s, f)) (hs : s ≤ t) (r : Res (Cost C D))
    (hf : f t x = r.map fun c => [c]) : fs.callPredictive t x = r.map fun c => [c] := by
  rw [CostFn.callPredictive, hg]
  simp only [bind, Except.bind, SingleCostFn.callPredictive, assertP, ge_iff_le, hs, decide_true, if_true, hf]
  cases r with
  | error e => rfl
  | ok c => by_cases h : t = s <;> simp [Except.map, h]

/-- The newest function decides the slot in which it was added. -/
theorem get_add_self {X C D : Type} [OutSuccess C] [OutFailure D] (history : List (Int × SingleCostFn X C D)) (u : Int)
    (hu : 1 ≤ u) (f : SingleCostFn X C D) : ((CostFn.build history).add u f).get u = .ok (u, f) := by
  rw [← CostFn.build_append history (u, f)]
  refine (C05_version_used _ u (u, f)).2 ?_
  refine ⟨hu, le_refl _, ⟨history, [], by simp, by simp⟩, ?_⟩
  intro e _ _ he
  exact he

theorem mapM_singleton_res {α β : Type} (f : α → Res β) (a : α) : [a].mapM f = (f a).map fun b => [b] := by
  simp only [List.mapM_cons, List.mapM_nil, bind, Except.bind, pure, Except.pure]
  cases f a <;> rfl

/-- A certain load of one type is evaluated online as offline. -/
theorem applyPredictedLoads_certain (S : Num.Solver) (choose : Nat → List ℚ → Nat → List ℚ) (hch : ChoosesFrom choose)
    (d e : Nat) (objective : LoadObjective T) (lambda : LoadProfile) (h1 : lambda.length = 1) (t : Int) (x : Config T) :
    applyPredictedLoads S choose d e objective [lambda.intoPredicted] t t x =
      (applyLoads S d e objective lambda t x).map fun c => [c] := by
  match lambda, h1 with
  | [z], _ =>
    have e1 : access [LoadProfile.intoPredicted [z]] (unshiftTime t t) = some [[z]] := by
      have : unshiftTime t t = 1 := by unfold unshiftTime; omega
      rw [this]; rfl
    unfold applyPredictedLoads
    simp only [e1, (C41_certain_partial choose hch z).1, bind, Except.bind, mapM_singleton_res]

/-- **C54** Replaying loads online, starting from the offline instance of earlier loads, yields an instance with the same
dimensions, horizon, bounds, switching costs, and the same hitting costs in all slots, as the offline instance of all
loads. One load type. -/
theorem C54_replay_ssco_partial (S : Num.Solver) (choose : Nat → List ℚ → Nat → List ℚ) (hch : ChoosesFrom choose)
    (m : DataCenterModel) (past future : List LoadProfile) (hf : ∀ l ∈ future, l.length = 1)
    (p0 p : SSCO T DCSuccess DCFailure) (h0 : m.toSSCO S past = .ok p0) (hp : m.toSSCO S (past ++ future) = .ok p) :
    ∃ o : Online (SSCO T DCSuccess DCFailure),
      (DataCenterModel.intoOnline future).foldlM (m.updateSSCO S choose) ⟨p0, 0⟩ = .ok o ∧ o.w = 0 ∧
      o.p.d = p.d ∧ o.p.tEnd = p.tEnd ∧ o.p.bounds = p.bounds ∧ o.p.switchingCost = p.switchingCost ∧
      ∀ t x, 1 ≤ t → t ≤ p.tEnd → o.p.toProb.hitCost t x = p.toProb.hitCost t x := by
  have key : ∀ future : List LoadProfile, (∀ l ∈ future, l.length = 1) →
      ∀ p : SSCO T DCSuccess DCFailure, m.toSSCO S (past ++ future) = .ok p →
      ∃ (o : Online (SSCO T DCSuccess DCFailure)) (history : _),
      (DataCenterModel.intoOnline future).foldlM (m.updateSSCO S choose) ⟨p0, 0⟩ = .ok o ∧ o.w = 0 ∧
      o.p.d = p.d ∧ o.p.tEnd = p.tEnd ∧ o.p.bounds = p.bounds ∧ o.p.switchingCost = p.switchingCost ∧
      o.p.hittingCost = CostFn.build history ∧
      ∀ t x, 1 ≤ t → t ≤ p.tEnd → o.p.toProb.hitCost t x = p.toProb.hitCost t x := by
    clear hp p hf future
    intro future
    induction future using List.reverseRecOn with
    | nil =>
      intro _ p hp
      rw [List.append_nil, h0] at hp
      cases hp
      refine ⟨⟨p0, 0⟩, applyLoadsOverTime S m.d m.e m.objective past 1, rfl, rfl, rfl, rfl, rfl, rfl, ?_,
        fun _ _ _ _ => rfl⟩
      · unfold DataCenterModel.toSSCO at h0
        simp only [bind, Except.bind] at h0
        split at h0
        · cases h0
        split at h0
        · cases h0
        cases h0
        rfl
    | append_singleton future l ih =>
      intro hf p hp
      have hshape : ∃ bs sc, ∀ ls, m.toSSCO S (T := T) ls =
          .ok ⟨m.d, ls.length, bs, sc, applyLoadsOverTime S m.d m.e m.objective ls 1⟩ := by
        unfold DataCenterModel.toSSCO at hp
        simp only [bind, Except.bind] at hp
        split at hp
        · cases hp
        rename_i bs hbs
        split at hp
        · cases hp
        rename_i sc hsc
        refine ⟨bs, sc, fun ls => ?_⟩
        unfold DataCenterModel.toSSCO
        simp only [bind, Except.bind, hbs, hsc]
      obtain ⟨bs, sc, hsh⟩ := hshape
      obtain ⟨o, history, a1, a2, a3, a4, a5, a6, a7, a8⟩ := ih (fun l hl => hf l (by simp [hl])) _ (hsh _)
      rw [hsh] at hp
      cases hp
      have hspan : o.w < ([l.intoPredicted].length : Int) := by rw [a2]; simp
      obtain ⟨o', b1, b2, b3, b4, b5, b6, b7, b8⟩ :=
        (C43_update_ssco S choose m o [l.intoPredicted] history a7).2 hspan
      refine ⟨o', _, ?_, b2.trans a2, b3.trans a3, ?_, b4.trans a5, b5.trans a6, b8, ?_⟩
      · unfold DataCenterModel.intoOnline at a1 ⊢
        rw [List.map_append, List.foldlM_append, a1]
        simp only [bind, Except.bind, List.map_singleton, List.foldlM_cons, b1]
        rfl
      · rw [b6, a4]; simp; omega
      · intro t x ht1 ht2
        by_cases hlt : t ≤ o.p.tEnd
        · rw [(b7 t x hlt).2.2.2, a8 t x ht1 (by rw [← a4]; exact hlt)]
          simp only [SSCO.toProb, CostFn.callMeanWithinBounds, applyLoadsOverTime]
          have hle : t ≤ ((past ++ future).length : Int) := by rw [a4] at hlt; exact hlt
          rw [CostFn.callMean_certain _ _ ht1, CostFn.callMean_certain _ _ ht1, ← List.append_assoc,
            access_append (past ++ future) [l]]
          · unfold unshiftTime; omega
        · have hT : t = o.p.tEnd + 1 := by
            have : (((past ++ (future ++ [l])).length : Nat) : Int) = o.p.tEnd + 1 := by
              rw [a4]; simp; omega
            have h3 : t ≤ (((past ++ (future ++ [l])).length : Nat) : Int) := ht2
            omega
          have ha : access (past ++ (future ++ [l])) (unshiftTime t 1) = some l := by
            have : unshiftTime t 1 = (((past ++ future).length : Nat) : Int) + 1 := by
              rw [hT, a4]; unfold unshiftTime; simp
            rw [this, ← List.append_assoc]
            unfold access
            rw [if_pos ⟨by omega, by simp; omega⟩]
            have : ((((past ++ future).length : Nat) : Int) + 1 - 1).toNat = (past ++ future).length := by omega
            rw [this]
            simp
          simp only [SSCO.toProb, CostFn.callMeanWithinBounds, b4, a5]
          have e1 : o'.p.hittingCost.callMean t x = applyLoads S m.d m.e m.objective l t x := by
            rw [CostFn.callMean_eq, b8, CostFn.build_append]
            have hg := get_add_self history (o.p.tEnd + 1) (by omega)
              (applyPredictedLoads S choose m.d m.e m.objective [l.intoPredicted] (o.p.tEnd + 1))
            rw [← hT] at hg ⊢
            rw [callPredictive_singleton _ t x t _ hg (le_refl _) (applyLoads S m.d m.e m.objective l t x)
              (applyPredictedLoads_certain S choose hch m.d m.e m.objective l (hf l (by simp)) t x)]
            cases applyLoads S m.d m.e m.objective l t x with
            | error e => rfl
            | ok c => exact Cost.mean_singleton c
          have e2 : (applyLoadsOverTime S m.d m.e m.objective (past ++ (future ++ [l])) 1).callMean t x =
              applyLoads S m.d m.e m.objective l t x := by
            unfold applyLoadsOverTime
            rw [CostFn.callMean_certain _ _ ht1]
            simp only [ha]
          rw [e1, e2]
  obtain ⟨o, _, a1, a2, a3, a4, a5, a6, _, a8⟩ := key future hf p hp
  exact ⟨o, a1, a2, a3, a4, a5, a6, a8⟩

/-- A data center with one location, one server type, one source and two job types. -/
def twoJobTypes : DataCenterModel where
  delta := 1
  locations := [⟨"a", fun _ => some 4⟩]
  serverTypes := [⟨"s", 1⟩]
  sources := [⟨"", fun _ _ => .ok 0⟩]
  jobTypes := [⟨"i", fun _ => .ok (1 / 2)⟩, ⟨"j", fun _ => .ok (1 / 4)⟩]
  consumptionModel := .linear fun _ => some ⟨1, 2⟩
  energyModel := .linear fun _ => some fun _ => 1
  lossModel := fun _ => some ⟨1, 10⟩
  switchingModel := fun _ => some ⟨1, 1, 2, 0, 1, 0, 0⟩

/-- With two job types replaying fails: the offline cost of a configuration is finite, but its online cost panics. -/
theorem C54_two_types_counterexample (choose : Nat → List ℚ → Nat → List ℚ) (hch : ChoosesFrom choose) :
    ∃ (p0 p : SSCO ℤ DCSuccess DCFailure) (o : Online (SSCO ℤ DCSuccess DCFailure)),
      twoJobTypes.toSSCO (constSolver []) [] = .ok p0 ∧ twoJobTypes.toSSCO (constSolver []) [[1, 1]] = .ok p ∧
      (DataCenterModel.intoOnline [[1, 1]]).foldlM (twoJobTypes.updateSSCO (constSolver []) choose) ⟨p0, 0⟩ = .ok o ∧
      ((p.toProb.hitCost 1 [2]).toOption.map (·.cost)) = some ((19 / 8 : ℚ) : ECost) ∧
      o.p.toProb.hitCost 1 [2] = .error .panic := by
  refine ⟨_, _, _, rfl, rfl, rfl, by decide +kernel, ?_⟩
  have hs : sampleLoadProfiles choose [[1], [1]] = .ok [[1], [1]] := by
    have h1 : ∀ i, choose i [1] 1 = [1] := fun i =>
      have h := hch i [1] 1 (by simp)
      List.perm_singleton.1 (h.2.perm_of_length_le (by simp [h.1]))
    show Except.ok [choose 0 [1] 1, choose 1 [1] 1] = _
    rw [h1, h1]
  show (do
    let e ← Except.ok ((1 : Int), applyPredictedLoads (constSolver []) choose 1 2 twoJobTypes.objective [[[1], [1]]] 1)
    e.2.callMean e.1 1 [(2 : ℤ)] : Res _) = _
  have ha : applyPredictedLoads (constSolver []) choose 1 2 twoJobTypes.objective [[[1], [1]]] 1 1 [(2 : ℤ)] =
      .error .panic := by
    show (do
      let profiles ← sampleLoadProfiles choose [[1], [1]]
      profiles.mapM fun lambda => applyLoads (constSolver []) 1 2 twoJobTypes.objective lambda 1 [(2 : ℤ)]) = _
    rw [hs]
    rfl
  simp only [bind, Except.bind, SingleCostFn.callMean, SingleCostFn.callPredictive, ha, assertP]
  rfl

end

section
variable {T : Type} [Value T] [FromFloat T]

theorem mapM_append_res {α β : Type} (f : α → Res β) (xs ys : List α) :
    (xs ++ ys).mapM f = (do let a ← xs.mapM f; let b ← ys.mapM f; .ok (a ++ b)) := by
  rw [List.mapM_append]
  rfl

theorem singleLoads_append (l1 l2 : List LoadProfile) :
    (DataCenterModel.singleLoads (l1 ++ l2) : Res (List T)) =
      (do let a ← DataCenterModel.singleLoads l1; let b ← DataCenterModel.singleLoads l2; .ok (a ++ b)) :=
  mapM_append_res _ l1 l2

theorem singleLoads_length {ls : List LoadProfile} {l : List T} (h : DataCenterModel.singleLoads ls = .ok l) :
    l.length = ls.length := mapM_ok_length h

/-- Replaying appends the loads one by one. -/
theorem replay_sblo (future : List LoadProfile) (hf : ∀ l ∈ future, l.length = 1) (o : Online (SBLO T))
    (hw : o.w = 0) (hl : o.p.tEnd = o.p.load.length) :
    ∃ ls, DataCenterModel.singleLoads future = .ok ls ∧
      (DataCenterModel.intoOnline future).foldlM DataCenterModel.updateSBLO o =
        .ok { o with p := { o.p with tEnd := o.p.tEnd + future.length, load := o.p.load ++ ls } } := by
  induction future generalizing o with
  | nil => exact ⟨[], rfl, by simp [DataCenterModel.intoOnline]; rfl⟩
  | cons l future ih =>
    match l, hf l (by simp) with
    | [z], _ =>
      have h1 : DataCenterModel.updateSBLO o [LoadProfile.intoPredicted [z]] =
          .ok { o with p := { o.p with tEnd := o.p.tEnd + 1, load := o.p.load ++ [FromFloat.fromFloat z] } } :=
        (C43_update_sblo o _ _).2 ⟨hl, by rw [hw]; decide, z, rfl, rfl⟩
      obtain ⟨ls, h2, h3⟩ := ih (fun l hl => hf l (by simp [hl]))
        { o with p := { o.p with tEnd := o.p.tEnd + 1, load := o.p.load ++ [FromFloat.fromFloat z] } } hw
        (by simp [hl])
      refine ⟨FromFloat.fromFloat z :: ls, ?_, ?_⟩
      · unfold DataCenterModel.singleLoads at h2 ⊢
        rw [List.mapM_cons]
        simp only [bind, Except.bind] at h2 ⊢
        simp only [h2]
        rfl
      · show (do let o1 ← DataCenterModel.updateSBLO o [LoadProfile.intoPredicted [z]]
                 (DataCenterModel.intoOnline future).foldlM DataCenterModel.updateSBLO o1) = _
        rw [h1]
        refine h3.trans ?_
        simp only [List.length_cons, List.append_assoc, List.cons_append, List.nil_append]
        have : o.p.tEnd + 1 + (future.length : Int) = o.p.tEnd + ((future.length + 1 : Nat) : Int) := by
          push_cast; ring
        rw [this]

/-- **C54** Replaying loads online, starting from the offline instance of earlier loads, yields exactly the offline
balanced-load instance of all loads. -/
theorem C54_replay_sblo (m : DataCenterModel) (past future : List LoadProfile) (hf : ∀ l ∈ future, l.length = 1)
    (p0 : SBLO T) (h0 : m.toSBLO past = .ok p0) :
    ∃ p, m.toSBLO (past ++ future) = .ok p ∧
      (DataCenterModel.intoOnline future).foldlM DataCenterModel.updateSBLO ⟨p0, 0⟩ = .ok ⟨p, 0⟩ := by
  unfold DataCenterModel.toSBLO at h0
  simp only [bind, Except.bind] at h0
  split at h0
  · cases h0
  rename_i g1
  split at h0
  · cases h0
  rename_i loc g2
  split at h0
  · cases h0
  rename_i g3
  split at h0
  · cases h0
  rename_i g4
  split at h0
  · cases h0
  rename_i bs g5
  split at h0
  · cases h0
  rename_i sc g6
  split at h0
  · cases h0
  rename_i load g7
  cases h0
  obtain ⟨ls, h2, h3⟩ := replay_sblo (T := T) future hf 
    ⟨⟨m.d, past.length, bs, sc, m.serverTypes.map (m.serverCost loc), load⟩, 0⟩ rfl
    (by rw [singleLoads_length g7])
  refine ⟨_, ?_, h3⟩
  unfold DataCenterModel.toSBLO
  simp only [bind, Except.bind, g1, g2, g3, g4, g5, g6, singleLoads_append, g7, h2, List.length_append]
  push_cast
  rfl

end

/-- A data center with one location, one server type, one source and one job type, whose energy price is the time. -/
def risingPrices : DataCenterModel where
  delta := 1
  locations := [⟨"a", fun _ => some 4⟩]
  serverTypes := [⟨"s", 1⟩]
  sources := [⟨"", fun _ _ => .ok 0⟩]
  jobTypes := [⟨"i", fun _ => .ok (1 / 2)⟩]
  consumptionModel := .linear fun _ => some ⟨1, 2⟩
  energyModel := .linear fun _ => some fun t => (t : ℚ)
  lossModel := fun _ => some ⟨1, 10⟩
  switchingModel := fun _ => some ⟨1, 1, 2, 0, 1, 0, 0⟩

example : ∃ p0 p : SBLO ℤ, risingPrices.toSBLO [[1]] = .ok p0 ∧ risingPrices.toSBLO [[1], [3], [2]] = .ok p ∧
    p.load = [1, 3, 2] ∧ (DataCenterModel.intoOnline [[3], [2]]).foldlM DataCenterModel.updateSBLO ⟨p0, 0⟩ = .ok ⟨p, 0⟩ :=
  ⟨_, _, rfl, rfl, by decide +kernel, by
    obtain ⟨p, h1, h2⟩ := C54_replay_sblo (T := ℤ) risingPrices [[1]] [[3], [2]] (by simp) _ rfl
    rw [h2]
    have h3 : risingPrices.toSBLO (T := ℤ) ([[1]] ++ [[3], [2]]) = .ok _ := rfl
    rw [h3] at h1
    cases h1
    rfl⟩

/-! ## C57 -/

theorem sumM_map_range_coe (n : Nat) (f : Nat → ℚ) :
    sumM ((List.range n).map fun t => (.ok ((f t : ℚ) : ECost) : Res ECost)) =
      .ok ((((List.range n).map f).sum : ℚ) : ECost) := by
  have h : ∀ f : Nat → ℚ, ((List.range n).map fun t => ((f t : ℚ) : ECost)).sum =
      ((((List.range n).map f).sum : ℚ) : ECost) := by
    intro f
    induction n with
    | zero => simp
    | succ n ih => simp [List.range_succ, ih]
  rw [← h f]
  exact sumM_ok_of _ fun _ _ => rfl

/-- **C57** (partial) The hitting cost of a server type in load optimisation is the average energy cost of a fully
utilised server, but over the slots `0, …, T - 1`. It differs from the average over the time horizon `1, …, T` by the
price difference of the slots `0` and `T`. -/
theorem C57_average_partial (m : DataCenterModel) (loc : Location) (st : ServerType) (T : Nat) (hT : 0 < T)
    (prices : String → Option (Int → ℚ)) (hm : m.energyModel = .linear prices) (c : Int → ℚ) (hc : prices loc.key = some c)
    (p : ℚ) (hp : m.consumptionModel.consumption m.delta st 1 = .ok p) :
    ∃ v : ℚ, m.fullCost loc T st = .ok (v : ECost) ∧
      v = ((List.range T).map fun t : Nat => c (t + 1 : Int) * p).sum / T + p * (c 0 - c T) / T := by
  have h1 : ∀ t : Int, m.energyModel.cost t loc (p : ECost) = .ok ((c t * p : ℚ) : ECost) := by
    intro t
    rw [hm]
    simp [EnergyModel.cost, lookup, hc, bind, Except.bind, ECost.mulQ]
  have hT' : (T : ℚ) ≠ 0 := by exact_mod_cast hT.ne'
  refine ⟨((List.range T).map fun t : Nat => c (t : Int) * p).sum / T, ?_, ?_⟩
  · unfold DataCenterModel.fullCost
    simp only [hp, bind, Except.bind, gt_iff_lt, hT, if_true, h1]
    rw [sumM_map_range_coe T fun t : Nat => c (t : Int) * p]
    rfl
  · have e : ∀ n : Nat, ((List.range n).map fun t : Nat => c (t : Int) * p).sum =
        ((List.range n).map fun t : Nat => c (t + 1 : Int) * p).sum + p * (c 0 - c n) := by
      intro n
      induction n with
      | zero => simp
      | succ n ih =>
        simp only [List.range_succ, List.map_append, List.sum_append, List.map_singleton, List.sum_singleton, ih]
        push_cast
        ring
    rw [e T]
    ring

/-- With rising prices the cost of a server in slot `1`, which is `2`, is replaced by the cost of slot `0`, which is
free. So all schedules of the load problem have the same hitting cost. -/
theorem C57_rising_prices_counterexample :
    ∃ p : SLO ℤ, risingPrices.toSLO [[1]] = .ok p ∧ p.hittingCost = [0] ∧
      risingPrices.energyModel.cost 1 ⟨"a", fun _ => some 4⟩ (2 : ℚ) = .ok ((2 : ℚ) : ECost) ∧
      risingPrices.consumptionModel.consumption 1 ⟨"s", 1⟩ 1 = .ok 2 := by
  refine ⟨_, rfl, by decide +kernel, ?_, ?_⟩
  · show Except.ok (((((1 : Int) : ℚ) * 2 : ℚ)) : ECost) = _
    norm_num
  · show Except.ok (1 * ((2 - 1) * 1 + 1) : ℚ) = _
    norm_num

end Soco
