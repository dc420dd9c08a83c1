import Verif.Props.Balanced
import Verif.Props.Convert

/-!
# C55: balanced-load problems of load problems
-/

namespace Soco
section
variable {T : Type} [Value T]

theorem toQ_sum (x : List T) : toQ x.sum = (x.map toQ).sum := by
  unfold toQ
  rw [map_list_sum]

theorem toQ_le_iff (a b : T) : toQ a ≤ toQ b ↔ a ≤ b := (Value.toQ_mono (T := T)).le_iff_le

theorem InBox.nonneg {bounds : List T} {x : Config T} (h : Spec.InBox bounds x) : ∀ j ∈ x, 0 ≤ j := by
  induction h with
  | nil => simp
  | cons h1 _ ih =>
    intro j hj
    rcases List.mem_cons.1 hj with rfl | hj
    · exact h1.1
    · exact ih j hj

/-- The cost of a server of a load problem at utilisation `y`. -/
def utilCost (cs : List ℚ) (k : Nat) (y : ℚ) : ECost := if y ≤ 1 then ((cs.getD k 0 : ℚ) : ECost) else ⊤

theorem intoSBLO_cost (p : SLO T) (t : Int) (ht : 1 ≤ t) (k : Nat) (g : CostFn ℚ Unit DCFailure) (y : ℚ)
    (c : Cost Unit DCFailure) (hg : p.intoSBLO.hittingCost[k]? = some g) (hc : g.callMean t y = .ok c) :
    c.cost = utilCost p.hittingCost k y := by
  simp only [SLO.intoSBLO, List.getElem?_map, Option.map_eq_some_iff] at hg
  obtain ⟨q, hq, rfl⟩ := hg
  rw [CostFn.callMean_certain _ t ht] at hc
  unfold utilCost
  have : p.hittingCost.getD k 0 = q := by simp [List.getD, hq]
  rw [this]
  split at hc <;> cases hc <;> rename_i h <;> simp [h, Cost.raw]

theorem balanced_capacity (cs : List ℚ) (xs loads : List ℚ) (l : ℚ) (costs : List ECost) (hx : ∀ q ∈ xs, 0 ≤ q)
    (h : Spec.Balanced (utilCost cs) xs l loads costs) (hfin : costs.sum ≠ ⊤) :
    l ≤ xs.sum ∧ costs = (List.range xs.length).map fun k => ((xs.getD k 0 * cs.getD k 0 : ℚ) : ECost) := by
  obtain ⟨h1, h2, h3, h4⟩ := h
  have hne : ∀ c ∈ costs, c ≠ ⊤ := by
    intro c hc hct
    apply hfin
    subst hct
    obtain ⟨a, b, rfl⟩ := List.append_of_mem hc
    simp
  have key : ∀ k, (hk : k < xs.length) →
      loads[k]'(by omega) ≤ xs[k] ∧ costs[k]'(by omega) = ((xs.getD k 0 * cs.getD k 0 : ℚ) : ECost) := by
    intro k hk
    have h5 := h4 k xs[k] (loads[k]'(by omega)) (costs[k]'(by omega)) (by simp) (by simp) (by simp)
    have hxg : xs.getD k 0 = xs[k] := by simp [List.getD, hk]
    rw [hxg]
    rcases eq_or_lt_of_le (hx xs[k] (List.getElem_mem hk)) with h0 | h0
    · obtain ⟨h6, h7⟩ := h5.2 (by rw [← h0])
      rw [h6, h7, ← h0, zero_mul]
      exact ⟨le_refl _, rfl⟩
    · have h6 := h5.1 h0
      unfold utilCost at h6
      split at h6
      · rename_i h7
        rw [div_le_one h0] at h7
        refine ⟨h7, ?_⟩
        rw [h6]; simp [ECost.mulQ]
      · exfalso
        refine hne _ (List.getElem_mem (show k < costs.length by omega)) ?_
        rw [h6]; rfl
  constructor
  · rw [← h3]
    apply List.Forall₂.sum_le_sum
    rw [List.forall₂_iff_get]
    refine ⟨h1, fun i hi hi' => ?_⟩
    exact (key i hi').1
  · apply List.ext_getElem
    · simp [h2]
    · intro i hi hi'
      rw [(key i (by omega)).2]
      simp

theorem coe_sum (qs : List ℚ) : (qs.map fun q : ℚ => (q : ECost)).sum = ((qs.sum : ℚ) : ECost) := by
  induction qs with
  | nil => rfl
  | cons q qs ih => simp [ih]

theorem sloSum_ok (cs : List ℚ) (x : Config T) (h : x.length ≤ cs.length) :
    sloSum x.length cs x = .ok ((List.range x.length).map fun k => (x.map toQ).getD k 0 * cs.getD k 0).sum := by
  induction x generalizing cs with
  | nil => rfl
  | cons j x ih =>
    cases cs with
    | nil => simp at h
    | cons c cs =>
      rw [List.length_cons, sloSum, ih cs (by simpa using h)]
      simp only [bind, Except.bind, List.length_cons, List.range_succ_eq_map, List.map_cons, List.sum_cons, List.map_map]
      simp [Function.comp_def, mul_comm]

/-- **C55** (partial) If the balanced-load problem of a load problem charges a configuration of its decision space a
finite cost, the load problem charges the same cost; in particular there is a server for each unit of load. The converse
fails, see `C55_rounding_counterexample`. -/
theorem C55_finite_cost_partial (S : Num.Solver) (hS : Spec.Shaped S) (p : SLO T) (hd : 1 ≤ p.d)
    (hc : (p.hittingCost.length : Int) = p.d) (hb : (p.bounds.length : Int) = p.d) (t : Int) (x : Config T) (ht : 1 ≤ t)
    (hbox : Spec.InBox p.bounds x) (l : T) (hl : access p.load t = some l) (hl0 : 0 ≤ l)
    (c : Cost DCSuccess DCFailure) (h : p.intoSBLO.hitCost S t x = .ok c) (hfin : c.cost ≠ ⊤) :
    l ≤ x.sum ∧ p.hitCost t x = .ok (Cost.raw c.cost) := by
  have hlen : x.length = p.d.toNat := by
    have := List.Forall₂.length_eq hbox
    omega
  rcases C40_balanced S hS p.intoSBLO hd t x ht hbox l hl hl0 (utilCost p.hittingCost)
    (fun k g y c => intoSBLO_cost p t ht k g y c) c h with h1 | ⟨loads, costs, h2, h3⟩
  · exact absurd h1 hfin
  · have hxn : ∀ q ∈ x.map toQ, 0 ≤ q := by
      intro q hq
      rw [List.mem_map] at hq
      obtain ⟨j, hj, rfl⟩ := hq
      rw [← toQ_zero (T := T), toQ_le_iff]
      exact InBox.nonneg hbox j hj
    obtain ⟨h4, h5⟩ := balanced_capacity p.hittingCost (x.map toQ) loads (toQ l) costs hxn h2 (h3 ▸ hfin)
    rw [← toQ_sum, toQ_le_iff] at h4
    refine ⟨h4, ?_⟩
    unfold SLO.hitCost
    rw [hl]
    rw [show Config.total x = x.sum from rfl] at *
    simp only
    rw [if_neg (not_lt.2 h4), ← hlen, sloSum_ok _ _ (by omega)]
    simp only [bind, Except.bind]
    rw [h3, h5, ← coe_sum, List.map_map]
    simp [Function.comp_def]

end

/-- Two server types, one server of the first and two of the second, and a load of three. -/
def thirds : SLO ℤ where
  d := 2
  tEnd := 1
  bounds := [1, 2]
  switchingCost := [1, 2]
  hittingCost := [2, 1]
  load := [3]

/-- The load problem accepts the configuration with all three servers, but its balanced-load problem never charges a
finite cost for it, because a third of the load is not a multiple of the numeric precision. -/
theorem C55_rounding_counterexample :
    (thirds.hitCost 1 [1, 2]).toOption.map (·.cost) = some ((4 : ℚ) : ECost) ∧
    ∀ S, Spec.Shaped S → ∀ c, thirds.intoSBLO.hitCost S 1 [1, 2] = .ok c → c.cost = ⊤ := by
  constructor
  · decide +kernel
  · intro S hS c hc
    have hbox : Spec.InBox thirds.intoSBLO.bounds [1, 2] :=
      .cons (by decide) (.cons (by decide) .nil)
    rw [SBLO.hitCost_eq S thirds.intoSBLO 1 [1, 2] (by decide) hbox 3 rfl] at hc
    obtain ⟨_, _, zs, h3, hprec, h4 | h4⟩ := applyLoads_ok hS hc
    · obtain ⟨o, h5, h6, _⟩ := h4
      obtain ⟨h7, loads, costs, h8, h9, h10⟩ := SBLO.objective_ok (z := ⟨zs, 2, 1⟩) rfl
        (show 1 ≤ 2 by omega) rfl (show zs.length = 1 from h3) (by decide +kernel) (utilCost [2, 1])
        (fun k g y c => intoSBLO_cost thirds 1 (by decide) k g y c) h5
      by_contra hfin
      rw [h6, h7, add_zero, h9] at hfin
      have h3' : zs.length = 1 := h3
      obtain ⟨z, rfl⟩ : ∃ z, zs = [z] := by
        match zs, h3' with
        | [z], _ => exact ⟨z, rfl⟩
      have hz : ∃ n : ℤ, z = n * Num.precision := by
        have : [Num.applyPrecision z] = [z] := hprec
        exact (Num.C48_apply_precision z z).2.2.2.1.1 (by simpa using this)
      obtain ⟨n, hn⟩ := hz
      have e1 : loads = [3 * z, 3 * (1 - z)] := by
        rw [h10]
        have ht : toQ (3 : ℤ) = 3 := rfl
        simp [LoadFractions.fr, List.range_succ, ht]
      obtain ⟨_, h12, _, h14⟩ := h8
      have hne : ∀ c ∈ costs, c ≠ ⊤ := by
        intro c hc hct
        apply hfin
        subst hct
        obtain ⟨a, b, rfl⟩ := List.append_of_mem hc
        simp
      have t1 : toQ (1 : ℤ) = 1 := rfl
      have t2 : toQ (2 : ℤ) = 2 := rfl
      have h12' : costs.length = 2 := h12
      have a1 := (h14 0 1 (3 * z) (costs[0]'(by omega)) rfl (by rw [e1]; rfl) (by simp)).1 (by norm_num)
      have a2 := (h14 1 2 (3 * (1 - z)) (costs[1]'(by omega)) rfl (by rw [e1]; rfl) (by simp)).1 (by norm_num)
      have b1 : 3 * z / 1 ≤ 1 := by
        by_contra h
        rw [utilCost, if_neg h] at a1
        exact hne _ (List.getElem_mem _) a1
      have b2 : 3 * (1 - z) / 2 ≤ 1 := by
        by_contra h
        rw [utilCost, if_neg h] at a2
        exact hne _ (List.getElem_mem _) a2
      have hz3 : z = 1 / 3 := by linarith
      rw [hz3] at hn
      unfold Num.precision at hn
      have : (3 * n : ℚ) = 100 := by linarith
      have : (3 * n : ℤ) = 100 := by exact_mod_cast this
      omega
    · exact h4.choose_spec.2.1

/-- A solver which returns the given point without evaluating others. -/
def constSolver (x : List ℚ) : Num.Solver := fun _ _ _ _ => ⟨[], x, .done⟩

/-- Non-vacuity: with a load of 2 the balanced-load problem accepts an even distribution. -/
example : ((({ thirds with load := [2] } : SLO ℤ).intoSBLO.hitCost (constSolver [1 / 2]) 1 [1, 2]).toOption.map
    (·.cost)) = some ((4 : ℚ) : ECost) := by decide +kernel

/-- The computation aborts. -/
def Res.panics {α : Type} : Res α → Bool
  | .error .panic => true
  | _ => false

/-- Solvers which evaluate an infeasible assignment of load to a dimension without servers abort the program; so do
solvers which run out of time at a point of finite cost. -/
theorem C40_solver_counterexamples :
    ∃ p : SBLO ℤ, p.d = 3 ∧
      (p.hitCost (fun _ _ _ _ => ⟨[], [1 / 2, 1 / 2], .done⟩) 1 [1, 1, 0]).toOption.isSome ∧
      (p.hitCost (fun _ _ _ _ => ⟨[[1, 1]], [1 / 2, 1 / 2], .done⟩) 1 [1, 1, 0]).panics ∧
      (p.hitCost (fun _ _ _ _ => ⟨[], [1 / 2, 1 / 2], .timedOut⟩) 1 [1, 1, 0]).panics := by
  refine ⟨{ d := 3, tEnd := 1, bounds := [1, 1, 1], switchingCost := [1, 2, 3],
            hittingCost := List.replicate 3 (CostFn.new 1 (SingleCostFn.certain fun _ l => .ok (Cost.raw (l : ECost)))),
            load := [1] }, rfl, by decide +kernel, by decide +kernel, by decide +kernel⟩

end Soco
