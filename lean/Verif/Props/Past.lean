import Verif.Props.MultiGraph2
import Verif.Props.CasesLoads

/-!
# C131: a resumed search does not look at the past

The cache of a search stands for the slots it covers. What a resumed search returns depends on the cache and on the later
slots only, so the costs (or loads) of the slots before may be forgotten.
-/

namespace Soco
open Multi

variable {C D : Type} [OutSuccess C] [OutFailure D]

theorem graphSearch_past (p₁ p₂ : SSCO ℤ C D) (hd : p₁.d = p₂.d) (hb : p₁.bounds = p₂.bounds)
    (hs : p₁.switchingCost = p₂.switchingCost) (hT : p₁.tEnd = p₂.tEnd) (c : Cache Vertex)
    (hh : ∀ t, c.t < t → t ≤ p₁.tEnd → ∀ x, p₁.toProb.hitCost t x = p₂.toProb.hitCost t x) (v : Values) (o : OfflineOptions) :
    graphSearch p₁ v (some c) o = graphSearch p₂ v (some c) o := by
  have hcongr : (timeRange (c.t + 1) p₁.tEnd).foldlM (handleSlot p₁ o.alpha o.inverted v) c.paths
      = (timeRange (c.t + 1) p₁.tEnd).foldlM (handleSlot p₂ o.alpha o.inverted v) c.paths := by
    apply foldlM_congr'
    intro t ht paths
    simp only [timeRange, List.mem_map, List.mem_range] at ht
    obtain ⟨i, hi, rfl⟩ := ht
    exact handleSlot_congr_problem hd hb hs (hh _ (by omega) (by omega)) _ _ v paths
  unfold graphSearch
  simp only [readCache, hcongr]
  rw [hd, hb, hT]

/-- **C131** The optimal search resumed from a cache returns the same (schedule, cost, new cache, failures) for any two
problems that agree on the slots after the cache, whatever their costs up to there. -/
theorem C131_past (p₁ p₂ : SSCO ℤ C D) (hd : p₁.d = p₂.d) (hb : p₁.bounds = p₂.bounds)
    (hs : p₁.switchingCost = p₂.switchingCost) (hT : p₁.tEnd = p₂.tEnd) (c : Cache Vertex)
    (hh : ∀ t, c.t < t → t ≤ p₁.tEnd → ∀ x, p₁.toProb.hitCost t x = p₂.toProb.hitCost t x) (o : OfflineOptions) :
    optimalGraphSearch p₁ (some c) o = optimalGraphSearch p₂ (some c) o := by
  unfold optimalGraphSearch
  rw [hb]
  cases allValues p₂.bounds with
  | error e => rfl
  | ok v => exact graphSearch_past p₁ p₂ hd hb hs hT c hh v o

/-- **C131** The same for the approximate search. -/
theorem C131_past_approx (fuel : Nat) (p₁ p₂ : SSCO ℤ C D) (hd : p₁.d = p₂.d) (hb : p₁.bounds = p₂.bounds)
    (hs : p₁.switchingCost = p₂.switchingCost) (hT : p₁.tEnd = p₂.tEnd) (c : Cache Vertex)
    (hh : ∀ t, c.t < t → t ≤ p₁.tEnd → ∀ x, p₁.toProb.hitCost t x = p₂.toProb.hitCost t x) (gamma : ℚ) (o : OfflineOptions) :
    approxGraphSearch fuel p₁ (some c) gamma o = approxGraphSearch fuel p₂ (some c) gamma o := by
  unfold approxGraphSearch
  rw [hb]
  congr 1
  funext r
  cases r with
  | error e => rfl
  | ok v => exact graphSearch_past p₁ p₂ hd hb hs hT c hh v o

/-- **C131** A search for the first `h` slots and a search resumed from its cache together return what one search over the
whole horizon returns, even if the resumed search is given a problem `q` in which the costs of the first `h` slots are
missing or wrong. -/
theorem C131_resume (p q : SSCO ℤ C D) (h : Int) (h0 : 0 ≤ h) (hT : h ≤ p.tEnd) (hd : q.d = p.d) (hb : q.bounds = p.bounds)
    (hs : q.switchingCost = p.switchingCost) (hq : q.tEnd = p.tEnd)
    (hh : ∀ t, h < t → t ≤ p.tEnd → ∀ x, q.toProb.hitCost t x = p.toProb.hitCost t x) (o : OfflineOptions)
    (r : CachedPath Vertex) (hr : optimalGraphSearch { p with tEnd := h } none o = .ok r) :
    optimalGraphSearch q (some r.cache) o = optimalGraphSearch p none o := by
  obtain ⟨ht, he⟩ := C21_resume { p with tEnd := h } p rfl rfl rfl hT h0 (fun _ _ _ _ => rfl) none (by simp) o r hr
  rw [← he]
  exact C131_past q p hd hb hs hq r.cache (fun t h1 h2 x => hh t (by simp only at ht; omega) (by omega) x) o

section Loads
variable {T : Type} [Value T]

theorem access_map {α β : Type} (f : α → β) (xs : List α) (i : Int) : access (xs.map f) i = (access xs i).map f := by
  unfold access
  simp only [List.length_map]
  split_ifs <;> simp

theorem access_drop {α : Type} (xs ys : List α) (n : Nat) (hl : xs.length = ys.length) (h : xs.drop n = ys.drop n) (t : Int)
    (ht : (n : Int) < t) : access xs t = access ys t := by
  unfold access
  rw [hl]
  split_ifs with h1
  · have e : (t - 1).toNat = n + ((t - 1).toNat - n) := by omega
    rw [e, ← List.getElem?_drop, ← List.getElem?_drop, h]
  · rfl

theorem sblo_hit_past (S : Num.Solver) (p : SBLO T) (load : List T) (n : Nat) (hl : p.load.length = load.length)
    (h : p.load.drop n = load.drop n) (t : Int) (ht : (n : Int) < t) (x : Config T) :
    p.hitCost S t x = ({ p with load := load } : SBLO T).hitCost S t x := by
  have e : access (p.load.map fun l => [toQ l]) (unshiftTime t 1) = access (load.map fun l => [toQ l]) (unshiftTime t 1) := by
    rw [access_map, access_map, access_drop p.load load n hl h _ (by simp only [unshiftTime]; omega)]
  have hc : (applyLoadsOverTime S p.d.toNat 1 p.objective (p.load.map fun l => [toQ l]) 1).callCertain t x
      = (applyLoadsOverTime S p.d.toNat 1 p.objective (load.map fun l => [toQ l]) 1).callCertain t x := by
    unfold applyLoadsOverTime
    rw [CostFn.callCertain_certain _ t (by omega), CostFn.callCertain_certain _ t (by omega), e]
  show (applyLoadsOverTime S p.d.toNat 1 p.objective (p.load.map fun l => [toQ l]) 1).callCertainWithinBounds t x
      (withinVec p.bounds)
    = (applyLoadsOverTime S p.d.toNat 1 p.objective (load.map fun l => [toQ l]) 1).callCertainWithinBounds t x
      (withinVec p.bounds)
  unfold CostFn.callCertainWithinBounds
  rw [hc]

theorem sblo_mean_past (S : Num.Solver) (p : SBLO T) (load : List T) (n : Nat) (hl : p.load.length = load.length)
    (h : p.load.drop n = load.drop n) (t : Int) (ht : (n : Int) < t) (x : Config T) :
    (p.intoSSCO S).toProb.hitCost t x = (({ p with load := load } : SBLO T).intoSSCO S).toProb.hitCost t x := by
  have hc := (CostFn.callMean_certain (fun t x => p.hitCost S t x) t (by omega) x).trans
    ((sblo_hit_past S p load n hl h t ht x).trans
      (CostFn.callMean_certain (fun t x => ({ p with load := load } : SBLO T).hitCost S t x) t (by omega) x).symm)
  show (CostFn.new 1 (SingleCostFn.certain fun t x => p.hitCost S t x)).callMeanWithinBounds t x (withinVec p.bounds)
    = (CostFn.new 1 (SingleCostFn.certain fun t x => ({ p with load := load } : SBLO T).hitCost S t x)).callMeanWithinBounds t x
      (withinVec p.bounds)
  unfold CostFn.callMeanWithinBounds
  rw [hc]

end Loads

/-- **C131** For balanced-load problems: a resumed search does not depend on the loads of the slots covered by the cache. -/
theorem C131_loads (S : Num.Solver) (p : SBLO ℤ) (load : List ℤ) (c : Cache Vertex) (hc : 0 ≤ c.t)
    (hl : p.load.length = load.length) (h : p.load.drop c.t.toNat = load.drop c.t.toNat) (o : OfflineOptions) :
    Offline.optimalSBLO S (some c) p o = Offline.optimalSBLO S (some c) { p with load := load } o :=
  C131_past (p.intoSSCO S) (({ p with load := load } : SBLO ℤ).intoSSCO S) rfl rfl rfl rfl c
    (fun t ht _ x => sblo_mean_past S p load _ hl h t (by omega) x) o

/-- **C131** For load problems with linear costs. -/
theorem C131_linear_loads (S : Num.Solver) (p : SLO ℤ) (load : List ℤ) (c : Cache Vertex) (hc : 0 ≤ c.t)
    (hl : p.load.length = load.length) (h : p.load.drop c.t.toNat = load.drop c.t.toNat) (o : OfflineOptions) :
    Offline.optimalSLO S (some c) p o = Offline.optimalSLO S (some c) { p with load := load } o :=
  C131_loads S p.intoSBLO load c hc hl h o

/-- **C131** For balanced-load problems in two stages: a search over the first `h` slots followed by a search resumed from
its cache returns the result of one search, even if the resumed search is given other loads for the first `h` slots. -/
theorem C131_loads_resume (S : Num.Solver) (p : SBLO ℤ) (load : List ℤ) (h : Nat) (hT : (h : Int) ≤ p.tEnd)
    (hl : p.load.length = load.length) (hd : p.load.drop h = load.drop h) (o : OfflineOptions) (r : CachedPath Vertex)
    (hr : Offline.optimalSBLO S none { p with tEnd := h } o = .ok r) :
    Offline.optimalSBLO S (some r.cache) { p with load := load } o = Offline.optimalSBLO S none p o :=
  C131_resume (p.intoSSCO S) (({ p with load := load } : SBLO ℤ).intoSSCO S) h (by omega) hT rfl rfl rfl rfl
    (fun t ht _ x => (sblo_mean_past S p load _ hl hd t ht x).symm) o r hr

/-! ## Concrete cases -/

/-- A problem like `Ex.ssco2`, but without costs for the first two slots: evaluating them aborts. -/
def exForgotten : SSCO ℤ Unit Unit :=
  { Ex.ssco2 with hittingCost := CostFn.new 1 (SingleCostFn.certain fun t x =>
      if t ≤ 2 then .error .panic else Ex.ssco2.toProb.hitCost t x) }

theorem exForgotten_hit (t : Int) (ht : 2 < t) (x : Config ℤ) : exForgotten.toProb.hitCost t x = Ex.ssco2.toProb.hitCost t x := by
  show (exForgotten.hittingCost).callMeanWithinBounds t x (withinVec Ex.ssco2.bounds) = _
  have e : exForgotten.hittingCost.callMean t x = Ex.ssco2.toProb.hitCost t x := by
    refine (CostFn.callMean_certain _ t (by omega) x).trans ?_
    rw [if_neg (by omega)]
  unfold CostFn.callMeanWithinBounds
  rw [e]
  show _ = Ex.ssco2.hittingCost.callMeanWithinBounds t x (withinVec Ex.ssco2.bounds)
  unfold CostFn.callMeanWithinBounds
  simp only [bind, Except.bind]
  cases hw : withinVec Ex.ssco2.bounds x with
  | error e => rfl
  | ok b =>
    cases b with
    | false => rfl
    | true =>
      show Ex.ssco2.hittingCost.callMeanWithinBounds t x (withinVec Ex.ssco2.bounds) = _
      simp [CostFn.callMeanWithinBounds, hw, bind, Except.bind]

/-- `C131_resume` applies to a search of the first two of three slots, and the resumed search succeeds although the costs of the
first two slots are gone. A search from scratch without them aborts. -/
example : ∃ r s, optimalGraphSearch { Ex.ssco2 with tEnd := 2 } none ⟨false, 1, none⟩ = .ok r ∧
    optimalGraphSearch exForgotten (some r.cache) ⟨false, 1, none⟩ = .ok s ∧
    optimalGraphSearch Ex.ssco2 none ⟨false, 1, none⟩ = .ok s ∧
    (optimalGraphSearch exForgotten none ⟨false, 1, none⟩).isOk = false := by
  have key := fun (h : Int) (h1 : 1 ≤ h) (h3 : h ≤ 3) =>
    C19_graph_search_optimal { Ex.ssco2 with tEnd := h }
      ((C10_ssco_verify_exact _).1 ⟨(by decide : 0 < Ex.ssco2.d), by simp only; omega, rfl, rfl,
        (by decide : ∀ u ∈ Ex.ssco2.bounds, 0 < u), (by decide +kernel : ∀ b ∈ Ex.ssco2.switchingCost, 0 < b)⟩) h1
      ⟨false, 1, none⟩ rfl (by norm_num) Ex.hitBox2 (fun t ht _ x hx => Ex.ssco2_hitBox t ht x hx)
      (fun t ht ht' => Ex.ssco2_top t ht (by simp only at ht'; have : Ex.ssco2.tEnd = 3 := rfl; omega))
  obtain ⟨r, hr, _⟩ := key 2 (by omega) (by omega)
  obtain ⟨s, hs, _⟩ := key 3 (by omega) (by omega)
  refine ⟨r, s, hr, ?_, hs, by decide +kernel⟩
  rw [C131_resume Ex.ssco2 exForgotten 2 (by decide) (by decide) rfl rfl rfl rfl (fun t ht _ x => exForgotten_hit t ht x) _ r hr]
  exact hs

/-- One type of servers whose cost is their utilisation, over three slots. -/
def exUtilised : SBLO ℤ :=
  ⟨1, 3, [2], [1], [CostFn.new 1 (SingleCostFn.certain fun _ l => .ok (Cost.raw (if l ≤ 1 then (l : ECost) else ⊤)))], [1, 2, 1]⟩

/-- `C131_loads_resume` applies to a search of the first slot, and the resumed search does not notice that the load of that
slot is given as 7, which no schedule can serve. -/
example : ∃ r s, Offline.optimalSBLO Lb.gridSolver none { exUtilised with tEnd := 1 } ⟨false, 1, none⟩ = .ok r ∧
    Offline.optimalSBLO Lb.gridSolver (some r.cache) { exUtilised with load := [7, 2, 1] } ⟨false, 1, none⟩ = .ok s ∧
    s.path.xs = [[1], [2], [2]] ∧
    (Offline.optimalSBLO Lb.gridSolver none { exUtilised with load := [7, 2, 1] } ⟨false, 1, none⟩).isOk = false := by
  obtain ⟨r, hr, -⟩ := Cases.found (r := Offline.optimalSBLO Lb.gridSolver none { exUtilised with tEnd := 1 } ⟨false, 1, none⟩)
    (f := fun r => r.path.xs) (b := [[1]]) (by decide +kernel)
  obtain ⟨s, hs, hs'⟩ := Cases.found (r := Offline.optimalSBLO Lb.gridSolver none exUtilised ⟨false, 1, none⟩)
    (f := fun r => r.path.xs) (b := [[1], [2], [2]]) (by decide +kernel)
  refine ⟨r, s, hr, ?_, hs', by decide +kernel⟩
  rw [C131_loads_resume Lb.gridSolver exUtilised [7, 2, 1] 1 (by decide) rfl rfl _ r hr]
  exact hs

end Soco
