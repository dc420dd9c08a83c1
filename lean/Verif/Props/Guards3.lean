import Verif.Props.Guards2

/-! # C52: graph search in several dimensions, capacity provisioning, lazy budgeting, horizon control -/

namespace Soco
open Spec Num

section
variable {C D : Type} [OutSuccess C] [OutFailure D]

namespace Multi

theorem quiet_buildConfig (next : Bool) (v : Values) (c : IConf) (k : Nat) : Quiet (buildConfig next v c k) := by
  have h : Quiet (nextIndex next v c k) := by unfold nextIndex; quiet
  unfold buildConfig
  quiet

theorem quiet_handleConfig (hm : UserMerge C) {p : SSCO ℤ C D} (hc : UserCosts p.hittingCost) (alpha : ℚ) (inverted : Bool) (t : Int)
    (k : Nat) (up : Bool) (v : Values) (paths : Paths Vertex) (c : IConf) :
    Quiet (handleConfig p alpha inverted t k up v paths c) := by
  have h1 := quiet_hit_ssco hm hc t
  have h2 := quiet_buildConfig
  have h3 : ∀ (ps : Paths Vertex) v, Quiet (ps.at v) := quiet_paths
  have h4 : ∀ pc l, Quiet (edgeCost p alpha inverted up c pc l) := by intro pc l; unfold edgeCost; quiet
  have h5 : ∀ l, Quiet (predEdge p alpha inverted up c v l) := by intro l; unfold predEdge; quiet
  have h6 : Quiet (inactionEdges p t up c) := by unfold inactionEdges inactionCost; quiet
  have h7 : Quiet (findPredecessors p alpha inverted t up k c v) := by unfold findPredecessors; quiet
  have h8 : ∀ ps paths, Quiet (findOptimal ps paths) := by intro ps paths; unfold findOptimal pick; quiet
  unfold handleConfig
  quiet

theorem quiet_handleLoop (hm : UserMerge C) {p : SSCO ℤ C D} (hc : UserCosts p.hittingCost) (alpha : ℚ) (inverted : Bool) (t : Int)
    (k : Nat) (up : Bool) (v : Values) (n : Nat) (c : IConf) (s : Paths Vertex × List IConf) :
    Quiet (handleLoop p alpha inverted t k up v n c s) := by
  induction n generalizing c s with
  | zero => exact .panic
  | succ n ih =>
    obtain ⟨paths, added⟩ := s
    have h1 := quiet_handleConfig hm hc alpha inverted t k up v paths c
    have h2 := quiet_buildConfig up v c (k - 1)
    unfold handleLoop
    quiet

theorem quiet_handleDims (hm : UserMerge C) {p : SSCO ℤ C D} (hc : UserCosts p.hittingCost) (alpha : ℚ) (inverted : Bool) (t : Int)
    (up : Bool) (v : Values) (n k : Nat) (configs : List IConf) (paths : Paths Vertex) :
    Quiet (handleDims p alpha inverted t up v n k configs paths) := by
  induction n generalizing k configs paths with
  | zero => exact .ok _
  | succ n ih =>
    have h1 := fun k => quiet_handleLoop hm hc alpha inverted t k up v
    have h2 := quiet_buildConfig
    have h3 : ∀ k base, Quiet (firstConfig k up v base) := by intro k base; unfold firstConfig; quiet
    unfold handleDims handleBase
    quiet

/-- With the guard of `graph_search` passed, no failure is returned. -/
theorem C52_graph_search (hm : UserMerge C) (p : SSCO ℤ C D) (hc : UserCosts p.hittingCost) (v : Values) (cache : Option (Cache Vertex))
    (o : OfflineOptions) : Checked (graphSearch p v cache o) [(o.l = none, .unsupportedLConstrainedMovement)] := by
  unfold graphSearch
  refine checked_cons Option.isNone_iff_eq_none fun _ => checked_nil ?_
  have h1 := fun t up => quiet_handleDims hm hc o.alpha o.inverted t up v
  have h3 : ∀ (ps : Paths Vertex) v, Quiet (ps.at v) := quiet_paths
  unfold handleSlot handleLayer
  quiet

/-- The optimal graph search in several dimensions. Without dimensions it panics before the check. -/
theorem C52_optimal_graph_search (hm : UserMerge C) (p : SSCO ℤ C D) (hc : UserCosts p.hittingCost) (hb : p.bounds ≠ [])
    (cache : Option (Cache Vertex)) (o : OfflineOptions) :
    Checked (optimalGraphSearch p cache o) [(o.l = none, .unsupportedLConstrainedMovement)] := by
  unfold optimalGraphSearch allValues
  obtain ⟨m, hm'⟩ := Option.isSome_iff_exists.1 (List.isSome_max?_of_ne_nil hb)
  rw [hm']
  exact C52_graph_search hm p hc _ cache o

/-- The approximate graph search in several dimensions, if it determines its grid. -/
theorem C52_approx_graph_search (hm : UserMerge C) (p : SSCO ℤ C D) (hc : UserCosts p.hittingCost)
    (cache : Option (Cache Vertex)) (gamma : ℚ) (o : OfflineOptions) (fuel : Nat) (v : Values)
    (hv : cacheBoundIndices fuel p.bounds gamma = some (.ok v)) (r : Res (CachedPath Vertex))
    (hr : approxGraphSearch fuel p cache gamma o = some r) : Checked r [(o.l = none, .unsupportedLConstrainedMovement)] := by
  unfold approxGraphSearch at hr
  rw [hv] at hr
  cases hr
  exact C52_graph_search hm p hc _ cache o

end Multi

/-! ## Capacity provisioning -/

namespace Lcp

theorem quiet_findBoundInt (hm : UserMerge C) {p : SSCO ℤ C D} (hc : UserCosts p.hittingCost) (hd : p.d = 1) (alpha : ℚ)
    (inverted : Bool) (w tEnd tStart : Int) (x : ℤ) : Quiet (findBoundInt p alpha inverted w tEnd tStart x) := by
  unfold findBoundInt
  have h1 : Quiet (Uni.optimalGraphSearch { p.reset tStart with tEnd := (p.reset tStart).tEnd + w } x
      { inverted := inverted, alpha := alpha, l := none }) :=
    checked_quiet (Uni.C52_optimal_graph_search hm _ (userCosts_reset hc tStart) x _) (by
      intro c hc'
      simp only [List.mem_cons, List.not_mem_nil, or_false] at hc'
      rcases hc' with rfl | rfl
      · trivial
      · exact hd)
  have h2 : Quiet (assertR (decide (p.d = 1)) (.unsupportedProblemDimension p.d)) := FailsOnly.assertR (by simp [hd])
  quiet

theorem quiet_findBoundFrac (hm : UserMerge C) {p : SSCO ℚ C D} (hc : UserCosts p.hittingCost) (hd : p.d = 1) {opt : Minimizer}
    (ho : ∀ f b, (∀ x, Quiet (f x)) → Quiet (opt f b)) (alpha : ℚ)
    (inverted : Bool) (w tEnd tStart : Int) (x : ℚ) : Quiet (findBoundFrac opt p alpha inverted w tEnd tStart x) := by
  have h1 := quiet_objective (quietProb_ssco hm (p := { p.reset tStart with tEnd := (p.reset tStart).tEnd + w })
    (userCosts_reset hc tStart))
  have h2 : Quiet (assertR (decide (p.d = 1)) (.unsupportedProblemDimension p.d)) := FailsOnly.assertR (by simp [hd])
  unfold findBoundFrac boundObjective
  quiet

/-- The bounds of capacity provisioning return no failure in one dimension. -/
def QuietBounds {T : Type} (b : Bounded T) : Prop := b.d = 1 → ∀ alpha i w tEnd tStart x, Quiet (b.find alpha i w tEnd tStart x)

theorem quietBounds_int (hm : UserMerge C) {p : SSCO ℤ C D} (hc : UserCosts p.hittingCost) : QuietBounds (boundedInt p) :=
  fun hd => quiet_findBoundInt hm hc hd

theorem quietBounds_frac (hm : UserMerge C) {p : SSCO ℚ C D} (hc : UserCosts p.hittingCost) {opt : Minimizer}
    (ho : ∀ f b, (∀ x, Quiet (f x)) → Quiet (opt f b)) : QuietBounds (boundedFrac opt p) :=
  fun hd => quiet_findBoundFrac hm hc hd ho

theorem checked_lcp {T : Type} [Value T] {b : Bounded T} (hb : QuietBounds b) (w t : Int) (xs : Schedule T)
    (bounds : List (BoundsMem T)) : Checked (lcp b w t xs bounds)
      [(b.d = 1, .unsupportedProblemDimension b.d), (t - 1 = bounds.length, .onlineOutOfDateMemory (t - 1) bounds.length)] := by
  unfold lcp
  refine checked_dec fun hd => checked_dec fun _ => checked_nil ?_
  have := hb hd
  quiet

/-- Lazy capacity provisioning for integral problems; any prediction window is supported. -/
theorem C52_lcp_int (hm : UserMerge C) (o : Online (SSCO ℤ C D)) (hc : UserCosts o.p.hittingCost) (xs : Schedule ℤ)
    (m : List (BoundsMem ℤ)) : Checked ((lcpAlg boundedInt).next o xs (some m))
      [(o.p.d = 1, .unsupportedProblemDimension o.p.d),
       ((xs.length : Int) = m.length, .onlineOutOfDateMemory xs.length m.length)] := by
  have := checked_lcp (quietBounds_int hm hc) o.w (Schedule.tEnd xs + 1) xs m
  simp only [Schedule.tEnd, add_sub_cancel_right] at this
  exact this

/-- Lazy capacity provisioning for fractional problems; any prediction window is supported. -/
theorem C52_lcp_frac (hm : UserMerge C) (opt : Minimizer) (ho : ∀ f b, (∀ x, Quiet (f x)) → Quiet (opt f b))
    (o : Online (SSCO ℚ C D)) (hc : UserCosts o.p.hittingCost) (xs : Schedule ℚ)
    (m : List (BoundsMem ℚ)) : Checked ((lcpAlg (boundedFrac opt)).next o xs (some m))
      [(o.p.d = 1, .unsupportedProblemDimension o.p.d),
       ((xs.length : Int) = m.length, .onlineOutOfDateMemory xs.length m.length)] := by
  have := checked_lcp (quietBounds_frac hm hc ho) o.w (Schedule.tEnd xs + 1) xs m
  simp only [Schedule.tEnd, add_sub_cancel_right] at this
  exact this

/-- Backward-recurrent capacity provisioning. -/
theorem C52_brcp (hm : UserMerge C) (opt : Minimizer) (ho : ∀ f b, (∀ x, Quiet (f x)) → Quiet (opt f b)) (p : SSCO ℚ C D)
    (hc : UserCosts p.hittingCost) (o : OfflineOptions) : Checked (brcp (boundedFrac opt p) o)
      [(o.inverted = false, .unsupportedInvertedCost), (o.l = none, .unsupportedLConstrainedMovement),
       (p.d = 1, .unsupportedProblemDimension p.d)] := by
  unfold brcp
  refine checked_cons (by simp) fun _ => checked_cons Option.isNone_iff_eq_none fun _ => checked_dec fun hd => checked_nil ?_
  have := quietBounds_frac hm hc ho hd
  unfold brcpStep brcpNext
  quiet

end Lcp

/-! ## Horizon control -/

namespace Horizon

theorem quiet_next (hm : UserMerge C) (S : Solver) (o : Online (SSCO ℚ C D)) (hc : UserCosts o.p.hittingCost) (k t : Int)
    (prev : Config ℚ) : Quiet (next S k o t prev) := by
  have h0 : ∀ d w (raw : List ℚ), Quiet (Schedule.fromRaw d w raw) := by intro d w raw; unfold Schedule.fromRaw; quiet
  have h1 : ∀ tStart prev raw, Quiet (objective o tStart prev raw) := by
    intro tStart prev raw
    have := quiet_objective (quietProb_ssco hm (p := o.p.reset (tStart - 1)) (userCosts_reset hc _))
    unfold objective Prob.objectiveWithDefault
    quiet
  have h2 : Quiet (box o) := by unfold box; quiet
  have h3 : ∀ xs a b, Quiet (slice xs a b) := by intro xs a b; unfold slice; quiet
  have h4 : ∀ f b, (∀ x, Quiet (f x)) → Quiet (minimize S f b none []) := fun f b hf => quiet_minimize S hf b none (by simp)
  unfold next
  quiet

/-- Horizon control supports all prediction windows and dimensions: it returns no failure. -/
theorem C52_rhc (hm : UserMerge C) (S : Solver) (o : Online (SSCO ℚ C D)) (hc : UserCosts o.p.hittingCost) (xs : Schedule ℚ)
    (m : Option Unit) : Checked ((rhc S).next o xs m) [] := by
  have := quiet_next hm S o hc
  refine checked_nil ?_
  simp only [OnlineAlgorithm.next, rhc]
  quiet

theorem C52_afhc (hm : UserMerge C) (S : Solver) (o : Online (SSCO ℚ C D)) (hc : UserCosts o.p.hittingCost) (xs : Schedule ℚ)
    (m : Option Memory) : Checked ((afhc S).next o xs m) [] := by
  have h1 := quiet_next hm S o hc
  have h2 : ∀ t m ks x p, Quiet (plans S o t m ks x p) := by
    intro t m ks
    induction ks with
    | nil => intro x p; exact .ok _
    | cons k ks ih => intro x p; unfold plans; quiet
  refine checked_nil ?_
  simp only [OnlineAlgorithm.next, afhc]
  quiet

end Horizon
end

/-! ## Lazy budgeting -/

theorem quiet_applyLoads {T : Type} [Value T] (S : Solver) (d e : Nat) (objective : LoadObjective T) (lambda : LoadProfile) (t : Int)
    (x : Config T) : Quiet (applyLoads S d e objective lambda t x) := by
  have h1 : ∀ zs, Quiet (solverObjective d e objective lambda t x zs) := by intro zs; unfold solverObjective; quiet
  have h2 : ∀ (z : LoadFractions) k i, Quiet (z.get k i lambda) := by
    intro z k i
    unfold LoadFractions.get
    have : Quiet (sumM ((List.range k).map fun j => idx z.zs (j * z.e + i))) := by
      refine FailsOnly.sumM _ fun y hy => ?_
      simp only [List.mem_map] at hy
      obtain ⟨j, -, rfl⟩ := hy
      exact FailsOnly.idx _ _
    quiet
  unfold applyLoads
  refine FailsOnly.bind (FailsOnly.assertP _) fun _ => FailsOnly.bind (FailsOnly.assertP _) fun _ => FailsOnly.bind
    (quiet_minimize S h1 _ _ ?_) fun r => ?_
  · intro c hc x
    simp only [List.mem_map] at hc
    obtain ⟨i, -, rfl⟩ := hc
    quiet
  · quiet

theorem quiet_sblo_hit {T : Type} [Value T] (S : Solver) (p : SBLO T) (t : Int) (x : Config T) : Quiet (p.hitCost S t x) := by
  have h : UserCosts (applyLoadsOverTime S p.d.toNat 1 p.objective (p.load.map fun l => [toQ l]) 1) := by
    refine userCosts_certain 1 fun t x => ?_
    have : ∀ l : LoadProfile, Quiet (applyLoads S p.d.toNat 1 p.objective l t x) := fun l => quiet_applyLoads S _ _ _ _ _ _
    quiet
  have h1 := quiet_certain h t x
  have h2 := quiet_withinVec p.bounds x
  unfold SBLO.hitCost CostFn.callCertainWithinBounds
  quiet

theorem userCosts_sblo {T : Type} [Value T] (S : Solver) (p : SBLO T) : UserCosts (p.intoSSCO S).hittingCost :=
  userCosts_certain 1 fun t x => quiet_sblo_hit S p t x

theorem quiet_graph_sblo (S : Solver) (p : SBLO ℤ) (cache : Option (Cache Multi.Vertex)) :
    Quiet (Multi.optimalGraphSearch (p.intoSSCO S) cache .dflt) := by
  by_cases hb : p.bounds = []
  · unfold Multi.optimalGraphSearch Multi.allValues
    rw [show (p.intoSSCO S).bounds = [] from hb]
    exact .panic
  · exact checked_quiet (Multi.C52_optimal_graph_search userMerge_dc _ (userCosts_sblo S p) hb cache .dflt) (by
      simp [OfflineOptions.dflt])

namespace Lb

/-- Lazy budgeting for load problems. -/
theorem C52_lazy_budgeting (S : Solver) (gamma : ℚ) (randomized : Bool) (o : Online (SLO ℤ)) (xs : Schedule ℤ) (m : Option Memory) :
    Checked ((alg S gamma randomized).next o xs m) [(o.w = 0, .unsupportedPredictionWindow o.w)] := by
  simp only [OnlineAlgorithm.next, alg, lb]
  refine checked_dec fun _ => checked_nil ?_
  have h0 : ∀ x fr n, Quiet (activeLanes x fr n) := by
    intro x fr n
    refine FailsOnly.sumM _ fun y hy => ?_
    simp only [List.mem_map] at hy
    obtain ⟨j, -, rfl⟩ := hy
    exact FailsOnly.idx _ _
  have h1 : ∀ x d b, Quiet (buildLanes x d b) := by intro x d b; unfold buildLanes buildLane; quiet
  have h2 := quiet_graph_sblo S o.p.intoSBLO
  have h3 : ∀ c b, Quiet (findOptimalLanes S c o.p b) := by
    intro c b
    have : ∀ xs : Schedule ℤ, Quiet (Schedule.now xs) := fun xs => FailsOnly.idx _ _
    unfold findOptimalLanes
    quiet
  have h4 : ∀ t g pl ph ol j, Quiet (updateLane o.p t g randomized pl ph ol j) := by
    intro t g pl ph ol j
    unfold updateLane nextTimeHorizon
    quiet
  have h5 : ∀ d l, Quiet (collectConfig d l) := by intro d l; unfold collectConfig collectLane; quiet
  clear h0 h1 h2
  quiet

end Lb

namespace Bb

/-- A failure that complains about options or problems an algorithm does not support. -/
def Unsupported : Failure → Prop
  | .unsupportedInvertedCost | .unsupportedLConstrainedMovement | .unsupportedPredictionWindow _ | .unsupportedProblemDimension _ => True
  | _ => False

/-- None of the failures that complain about options or problems. -/
def Other (f : Failure) : Prop := ¬ Unsupported f

theorem FailsOnly.bind' {α β : Type} {P : Failure → Prop} {x : Res α} {k : α → Res β} (hx : FailsOnly P x)
    (hk : ∀ a, x = .ok a → FailsOnly P (k a)) : FailsOnly P (x >>= k) := by
  cases x with
  | error e => exact ⟨fun f hf => by cases hf; exact hx.only f rfl⟩
  | ok a => exact hk a rfl

theorem quiet_sumM_map {α β : Type} [Zero β] [Add β] {P : Failure → Prop} (xs : List α) (f : α → Res β) (h : ∀ a, FailsOnly P (f a)) :
    FailsOnly P (sumM (xs.map f)) := by
  refine FailsOnly.sumM _ fun y hy => ?_
  simp only [List.mem_map] at hy
  obtain ⟨j, -, rfl⟩ := hy
  exact h j

theorem other_validity (b : Bool) : FailsOnly Other (assertValidity b) := .assertR fun _ => by simp [Other, Unsupported]

theorem other_forM {P : Failure → Prop} {α : Type} (f : α → Res Unit) (h : ∀ k, FailsOnly P (f k)) (xs : List α) :
    FailsOnly P (xs.forM f) := by
  induction xs with
  | nil => exact .ok _
  | cons x xs ih => exact (h x).bind fun _ => ih

theorem other_verify (o : Online (SBLO ℤ)) : FailsOnly Other (Online.verify SBLO.verify o) := by
  have h1 := other_validity
  have h2 : ∀ n f, (∀ k, FailsOnly Other (f k)) → FailsOnly Other (forRange n f) := fun n f h => other_forM f h _
  unfold Online.verify SBLO.verify
  quiet

theorem quiet_algB (S : Solver) (o : Online (SBLO ℤ)) (hc : ∀ f ∈ o.p.hittingCost, UserCosts f) (t : Int) (xs : Schedule ℤ)
    (m : AlgBMemory) : Quiet (algB S o t xs m) := by
  have h1 := quiet_graph_sblo S o.p
  have h2 : ∀ f, UserCosts f → ∀ a b, Quiet (cumulativeIdleHittingCost f a b) := by
    intro f hf a b
    refine quiet_sumM_map _ _ fun t => ?_
    have := quiet_certain hf t 0
    quiet
  have h3 : ∀ f, UserCosts f → ∀ sc it tn k, Quiet (deactivatedQuantity f sc it tn k) := by
    intro f hf sc it tn k
    refine quiet_sumM_map _ _ fun t => ?_
    have h := h2 f hf
    have h' := quiet_certain hf tn 0
    clear h2
    quiet
  have h4 : ∀ p o', Quiet (findOptimalConfig S p o') := by
    intro c p
    have := quiet_graph_sblo S p
    unfold findOptimalConfig Schedule.now
    quiet
  have h5 : ∀ prev opt it k, Quiet (stepDim o.p t prev opt it k) := by
    intro prev opt it k
    unfold stepDim
    refine .bind (.idx _ _) fun _ => FailsOnly.bind' (.idx _ _) fun f hf => .bind (.idx _ _) fun b => .bind (h3 f ?_ _ _ _ _) fun _ =>
      .bind (.idx _ _) fun _ => .ok _
    apply hc
    unfold idx at hf
    split at hf
    · rename_i h
      cases hf
      exact List.mem_of_getElem? h
    · cases hf
  clear h1 h2 h3
  unfold algB
  quiet

theorem other_stream (S : Solver) (horizon : Int) (fuel : Nat) (o : Online (SBLO ℤ)) (hc : ∀ f ∈ o.p.hittingCost, UserCosts f)
    (xs : Schedule ℤ) (m : Option AlgBMemory) (r)
    (h : streamFrom SBLO.tEnd (Online.verify SBLO.verify) (algBAlg S) (offlineUpdate SBLO.tEnd SBLO.setTEnd horizon) fuel o xs m = some r) :
    FailsOnly Other r := by
  induction fuel generalizing o xs m with
  | zero => cases h
  | succ fuel ih =>
    unfold streamFrom at h
    have h1 : FailsOnly Other (onlineNext SBLO.tEnd (algBAlg S) o xs m) := by
      unfold onlineNext
      refine .bind (.assertR fun _ => by simp [Other, Unsupported]) fun _ => .bind (Quiet.any (quiet_algB S o hc _ _ _)) fun _ => .ok _
    split at h
    · rename_i e he
      cases h
      exact ⟨fun f hf => h1.only f (by rw [he]; cases hf; rfl)⟩
    · split at h
      · cases h
        exact .ok _
      · rename_i o' ho
        have ho' : ∀ f ∈ o'.p.hittingCost, UserCosts f := by
          unfold offlineUpdate at ho
          split at ho
          · cases ho
            exact hc
          · cases ho
        split at h
        · rename_i e he
          cases h
          exact ⟨fun f hf => (other_verify o').only f (by rw [he]; cases hf; rfl)⟩
        · exact ih o' ho' _ _ h

theorem mapM_mem {α β : Type} {f : α → Res β} {xs : List α} {ys : List β} (h : xs.mapM f = .ok ys) : ∀ y ∈ ys, ∃ x, f x = .ok y := by
  induction xs generalizing ys with
  | nil => rw [List.mapM_nil] at h; cases h; simp
  | cons x xs ih =>
    rw [List.mapM_cons] at h
    cases hx : f x with
    | error e => rw [hx] at h; cases h
    | ok y =>
      rw [hx] at h
      cases hxs : xs.mapM f with
      | error e => rw [hxs] at h; cases h
      | ok ys' =>
        rw [hxs] at h
        cases h
        intro z hz
        rcases List.mem_cons.1 hz with rfl | hz
        · exact ⟨x, hx⟩
        · exact ih hxs z hz

theorem userCosts_add {fs : CostFn ℚ Unit DCFailure} (h : UserCosts fs) (t : Int) {f : SingleCostFn ℚ Unit DCFailure}
    (hf : ∀ t x, Quiet (f t x)) : UserCosts (fs.add t f) := by
  induction fs with
  | nil =>
    intro e he
    simp only [CostFn.add, List.mem_singleton] at he
    subst he
    exact hf
  | cons a r ih =>
    obtain ⟨s, g⟩ := a
    have hr := ih fun e he => h e (by simp [he])
    intro e he
    unfold CostFn.add at he
    split at he
    · rcases List.mem_cons.1 he with rfl | he
      · exact hf
      · exact h e (by simp_all)
    · split at he
      · rcases List.mem_cons.1 he with rfl | he
        · exact hf
        · exact h e (by simp_all)
      · rcases List.mem_cons.1 he with rfl | he
        · exact h (s, g) (by simp)
        · exact hr e he

theorem quiet_subCost {raw : CostFn ℚ Unit DCFailure} (h : UserCosts raw) (t n uInit uEnd : Int) (u : Int) (x : ℚ) :
    Quiet (subCost raw t n uInit uEnd u x) := by
  have := quiet_certain h t x
  refine FailsOnly.map _ ?_
  quiet

theorem userCosts_modify {p : SBLO ℤ} (hc : ∀ f ∈ p.hittingCost, UserCosts f) {load : List ℤ} {fs : List (CostFn ℚ Unit DCFailure)}
    (hf : ∀ f ∈ fs, UserCosts f) {t n uInit uEnd : Int} : Quiet (modifyProblem p load fs t n uInit uEnd) ∧
    ∀ q, modifyProblem p load fs t n uInit uEnd = .ok q → (∀ f ∈ q.1.hittingCost, UserCosts f) ∧ ∀ f ∈ q.2.2, UserCosts f := by
  have hidx : ∀ {α : Type} {xs : List α} {k : Nat} {a : α}, idx xs k = .ok a → a ∈ xs := by
    intro α xs k a h
    unfold idx at h
    split at h
    · rename_i h'
      cases h
      exact List.mem_of_getElem? h'
    · cases h
  constructor
  · unfold modifyProblem
    quiet
  · intro q hq
    unfold modifyProblem at hq
    cases ha : assertP (decide (uEnd - uInit + 1 = n)) with
    | error e => rw [ha] at hq; cases hq
    | ok u =>
      rw [ha] at hq
      generalize hg : (List.range p.d.toNat).mapM (fun k => do
        let raw ← idx p.hittingCost k
        let old ← idx fs k
        Except.ok (old.add uInit (subCost raw t n uInit uEnd))) = g at hq
      cases g with
      | error e => cases hq
      | ok g =>
        have hu : ∀ f ∈ g ++ fs.drop p.d.toNat, UserCosts f := by
          intro f hf'
          rcases List.mem_append.1 hf' with hf' | hf'
          · obtain ⟨k, hk⟩ := mapM_mem hg f hf'
            cases h1 : idx p.hittingCost k with
            | error e => rw [h1] at hk; cases hk
            | ok raw =>
              rw [h1] at hk
              cases h2 : idx fs k with
              | error e => rw [h2] at hk; cases hk
              | ok old =>
                rw [h2] at hk
                cases hk
                exact userCosts_add (hf _ (hidx h2)) _ (quiet_subCost (hc _ (hidx h1)) _ _ _ _)
          · exact hf f (List.mem_of_mem_drop hf')
        simp only [bind, Except.bind] at hq
        split at hq
        · cases hq
        · split at hq
          · cases hq
          · split at hq
            · cases hq
            · cases hq
              exact ⟨hu, hu⟩

/-- Lazy budgeting for balanced-load problems: it rejects prediction windows, and apart from that rejects no options and no
problems. -/
theorem C52_lazy_budgeting (S : Solver) (epsilon : ℚ) (o : Online (SBLO ℤ)) (hc : ∀ f ∈ o.p.hittingCost, UserCosts f)
    (xs : Schedule ℤ) (m : Option Memory) (hm : ∀ m' ∈ m, ∀ f ∈ m'.hittingCost, UserCosts f) :
    (o.w ≠ 0 → (alg S epsilon).next o xs m = .error (.fail (.unsupportedPredictionWindow o.w))) ∧
    (o.w = 0 → ∀ f, (alg S epsilon).next o xs m = .error (.fail f) → ¬ Unsupported f) ∧
    ∀ x m', (alg S epsilon).next o xs m = .ok (x, m') → ∀ m'' ∈ m', ∀ f ∈ m''.hittingCost, UserCosts f := by
  obtain ⟨m0, hm0, hm1⟩ : ∃ m0, m.getD (Memory.dflt o) = m0 ∧ ∀ f ∈ m0.hittingCost, UserCosts f := by
    refine ⟨_, rfl, ?_⟩
    cases m with
    | some m => exact hm m rfl
    | none =>
      intro f hf
      simp only [Option.getD_none, Memory.dflt, List.mem_map] at hf
      obtain ⟨_, -, rfl⟩ := hf
      intro e he
      cases he
  have hn : ∀ n uI uE q, modifyProblem o.p m0.load m0.hittingCost (Schedule.tEnd xs + 1) n uI uE = .ok q →
      (∀ f ∈ q.1.hittingCost, UserCosts f) ∧ ∀ f ∈ q.2.2, UserCosts f := fun n uI uE => (userCosts_modify hc hm1).2
  have hn' : ∀ n uI uE, Quiet (modifyProblem o.p m0.load m0.hittingCost (Schedule.tEnd xs + 1) n uI uE) :=
    fun n uI uE => (userCosts_modify hc hm1).1
  have hs : ∀ n q r, (∀ f ∈ q.hittingCost, UserCosts f) → offlineStreamFrom SBLO.tEnd SBLO.setTEnd (Online.verify SBLO.verify)
      (algBAlg S) ((m0.load.length : Int) + 1 + n - 1) (n.toNat + 1) ⟨q, 0⟩ m0.modM.1 m0.modM.2 = some r → FailsOnly Other r :=
    fun n q r hq h => other_stream S _ _ ⟨q, 0⟩ hq _ _ r h
  have hd : Quiet (determineSubTimeSlots o.p (Schedule.tEnd xs + 1) epsilon) := by
    unfold determineSubTimeSlots
    refine .bind (FailsOnly.mapM (fun k => ?_) _) fun fs => ?_
    · refine FailsOnly.bind' (.idx _ _) fun f hf => .bind (quiet_certain (hc f ?_) _ _) fun _ => .bind (.idx _ _) fun _ => .ok _
      unfold idx at hf
      split at hf
      · rename_i h
        cases hf
        exact List.mem_of_getElem? h
      · cases hf
    · quiet
  have hdc : ∀ p xs a b, FailsOnly Other (determineConfig S p xs a b) := by
    intro p xs a b
    have h1 := fun t x => quiet_sblo_hit S p t x
    have h2 : ∀ u, Quiet (subHit S p xs u) := by intro u; unfold subHit; quiet
    have h3 : Quiet (determineConfig S p xs a b) := by
      clear h1
      unfold determineConfig
      quiet
    exact h3.any
  simp only [OnlineAlgorithm.next, alg, hm0]
  unfold lb
  refine ⟨fun hw => by simp [assertR, hw, bind, Except.bind], fun hw f hf => ?_, fun x m' hr m'' hm'' => ?_⟩
  · refine (?_ : FailsOnly Other _).only f hf
    refine .bind (.assertR (by simp [hw])) fun _ => .bind hd.any fun n => FailsOnly.bind' (hn' _ _ _).any fun q hq => ?_
    split
    · exact .panic
    · rename_i r hr
      exact .bind (hs n q.1 _ (hn _ _ _ q hq).1 hr) fun _ => .bind (hdc _ _ _ _) fun _ => .ok _
  · simp only [bind, Except.bind] at hr
    split at hr
    · cases hr
    · split at hr
      · cases hr
      · split at hr
        · cases hr
        · rename_i q hq
          split at hr
          · cases hr
          · split at hr
            · cases hr
            · split at hr
              · cases hr
              · cases hr
                cases hm''
                exact (hn _ _ _ _ hq).2

end Bb

/-! ## Concrete cases

A problem with two dimensions is rejected by the algorithms for one dimension, a problem with a prediction window by the
descent algorithms, and the returned failures name the reason. -/
namespace GuardEx

/-- Quadratic costs around `3`, for configurations of any length. -/
def cost : CostFn (Config ℤ) Unit Unit :=
  CostFn.new 1 (SingleCostFn.certain fun _ x => .ok ⟨(((x.sum - 3) ^ 2 : ℤ) : ℚ), .success ()⟩)

theorem cost_user : UserCosts cost := userCosts_certain 1 fun _ _ => .ok _

def prob (d : Int) (bounds : List ℤ) : SSCO ℤ Unit Unit := ⟨d, 2, bounds, bounds.map fun _ => 1, cost⟩

example : Uni.optimalGraphSearch (prob 2 [4, 4]) 0 .dflt = .error (.fail (.unsupportedProblemDimension 2)) :=
  (Uni.C52_optimal_graph_search userMerge_unit (prob 2 [4, 4]) cost_user 0 .dflt _).2
    (.inr ⟨rfl, .inl ⟨by decide, rfl⟩⟩)

example : Multi.optimalGraphSearch (prob 2 [4, 4]) none ⟨false, 1, some 1⟩ = .error (.fail .unsupportedLConstrainedMovement) :=
  (Multi.C52_optimal_graph_search userMerge_unit (prob 2 [4, 4]) cost_user (by decide) none ⟨false, 1, some 1⟩ _).2
    (.inl ⟨by decide, rfl⟩)

example : (Lcp.lcpAlg Lcp.boundedInt).next ⟨prob 1 [4], 3⟩ [] (some [⟨1, 2⟩])
    = .error (.fail (.onlineOutOfDateMemory 0 1)) :=
  (Lcp.C52_lcp_int userMerge_unit ⟨prob 1 [4], 3⟩ cost_user [] [⟨1, 2⟩] _).2 (.inr ⟨rfl, .inl ⟨by decide, rfl⟩⟩)

example (f : Failure) : (Lcp.lcpAlg Lcp.boundedInt).next ⟨prob 1 [4], 3⟩ [] (some []) ≠ .error (.fail f) := by
  rw [Ne, Lcp.C52_lcp_int userMerge_unit ⟨prob 1 [4], 3⟩ cost_user [] [] f]
  simp [FirstViolated, prob]

end GuardEx
end Soco
