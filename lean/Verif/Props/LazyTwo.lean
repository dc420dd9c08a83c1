import Verif.Props.LazyRandom
import Mathlib.Algebra.Order.Archimedean.Basic

/-!
# C69, C72: lazy budgeting with two server types
-/

namespace Soco
namespace Lb

/-- A load of `100 n`, which `100 n - 1` cheap servers and a single expensive one could handle. -/
def uneven (n : Nat) : SLO ℤ where
  d := 2
  tEnd := 1
  bounds := [100 * n - 1, 100 * n]
  switchingCost := [1, 200 * n]
  hittingCost := [1, 1 / 2]
  load := [100 * n]

/-- An optimiser which always returns the origin. -/
def zeroSolver : Num.Solver := fun bounds _ _ _ => ⟨[], List.replicate bounds.length 0, .done⟩

theorem zeroSolver_shaped : Spec.Shaped zeroSolver := by
  intro bounds f init cs _
  simp [zeroSolver]

theorem box_two {u v : ℤ} {x : Config ℤ} (h : Spec.InBox [u, v] x) :
    ∃ a b : ℤ, x = [a, b] ∧ 0 ≤ a ∧ a ≤ u ∧ 0 ≤ b ∧ b ≤ v := by
  cases h with
  | cons h1 h =>
    cases h with
    | cons h2 h =>
      cases h
      exact ⟨_, _, rfl, h1.1, h1.2, h2.1, h2.2⟩

/-- Since the fraction of the load given to the first type is a multiple of 0.01, at least a hundredth of the load
remains for the expensive servers. -/
theorem uneven_needs (S : Num.Solver) (hS : Spec.Shaped S) (n : Nat) (hn : 1 ≤ n) (a b : ℤ)
    (hbox : Spec.InBox (uneven n).bounds [a, b]) (c : Cost DCSuccess DCFailure)
    (hc : (uneven n).intoSBLO.hitCost S 1 [a, b] = .ok c) (hfin : c.cost ≠ ⊤) : (n : ℤ) ≤ b := by
  obtain ⟨a', b', e, a0, a1, b0, b1⟩ := box_two hbox
  simp only [List.cons.injEq, and_true] at e
  obtain ⟨rfl, rfl⟩ := e
  have hnq : (1 : ℚ) ≤ n := by exact_mod_cast hn
  rw [SBLO.hitCost_eq S (uneven n).intoSBLO 1 [a, b] (by decide) hbox (100 * n) rfl] at hc
  have hl : (0 : ℚ) ≤ toQ (100 * (n : ℤ)) := by
    show (0 : ℚ) ≤ ((100 * (n : ℤ) : ℤ) : ℚ)
    push_cast; linarith
  have hl' : toQ (100 * (n : ℤ)) = 100 * (n : ℚ) := by
    show ((100 * (n : ℤ) : ℤ) : ℚ) = _
    push_cast; rfl
  have ha' : toQ a = (a : ℚ) := rfl
  have hb' : toQ b = (b : ℚ) := rfl
  obtain ⟨_, _, zs, h3, hprec, h4 | h4⟩ := applyLoads_ok hS hc
  · obtain ⟨o, h5, h6, _⟩ := h4
    obtain ⟨h7, loads, costs, h8, h9, h10⟩ := SBLO.objective_ok (z := ⟨zs, 2, 1⟩) rfl
      (show 1 ≤ 2 by omega) rfl (show zs.length = 1 from h3) hl (utilCost [1, 1 / 2])
      (fun k g y c => intoSBLO_cost (uneven n) 1 (by decide) k g y c) h5
    rw [h6, h7, add_zero, h9] at hfin
    have h3' : zs.length = 1 := h3
    obtain ⟨z, rfl⟩ : ∃ z, zs = [z] := by
      match zs, h3' with
      | [z], _ => exact ⟨z, rfl⟩
    obtain ⟨k, hk⟩ : ∃ k : ℤ, z = k * Num.precision := by
      have : [Num.applyPrecision z] = [z] := hprec
      exact (Num.C48_apply_precision z z).2.2.2.1.1 (by simpa using this)
    have hpos : (0 : ℚ) < 100 * (n : ℚ) := by linarith
    have e1 : loads = [100 * n * z, 100 * n * (1 - z)] := by
      rw [h10, hl']
      simp [LoadFractions.fr, List.range_succ, show n ≠ 0 by omega, show 0 < n by omega]
    obtain ⟨_, h12, _, h14⟩ := h8
    have hne : ∀ c ∈ costs, c ≠ ⊤ := by
      intro c hc hct
      apply hfin
      subst hct
      obtain ⟨a, b, rfl⟩ := List.append_of_mem hc
      simp
    have h12' : costs.length = 2 := h12
    have a1' := h14 0 a (100 * n * z) (costs[0]'(by omega)) rfl (by rw [e1]; rfl) (by simp)
    have a2' := h14 1 b (100 * n * (1 - z)) (costs[1]'(by omega)) rfl (by rw [e1]; rfl) (by simp)
    have le1 : 100 * (n : ℚ) * z ≤ a := by
      rcases (show (0 : ℚ) ≤ a by exact_mod_cast a0).eq_or_lt with e | e
      · rw [(a1'.2 e.ge).1]; exact e.le
      · have := a1'.1 e
        by_contra h
        rw [utilCost, if_neg (by rw [div_le_one e]; exact h)] at this
        exact hne _ (List.getElem_mem _) this
    have le2 : 100 * (n : ℚ) * (1 - z) ≤ b := by
      rcases (show (0 : ℚ) ≤ b by exact_mod_cast b0).eq_or_lt with e | e
      · rw [(a2'.2 e.ge).1]; exact e.le
      · have := a2'.1 e
        by_contra h
        rw [utilCost, if_neg (by rw [div_le_one e]; exact h)] at this
        exact hne _ (List.getElem_mem _) this
    have hk99 : k ≤ 99 := by
      by_contra h
      have h100 : (100 : ℚ) ≤ k := by exact_mod_cast (show (100 : ℤ) ≤ k by omega)
      have hz1 : 1 ≤ z := by rw [hk]; unfold Num.precision; linarith
      have : 100 * (n : ℚ) * 1 ≤ 100 * n * z := mul_le_mul_of_nonneg_left hz1 hpos.le
      have a1q : (a : ℚ) ≤ 100 * n - 1 := by exact_mod_cast a1
      linarith
    have hk' : (k : ℚ) ≤ 99 := by exact_mod_cast hk99
    have hz : z ≤ 99 / 100 := by rw [hk]; unfold Num.precision; linarith
    have : 100 * (n : ℚ) * (1 / 100) ≤ 100 * n * (1 - z) := mul_le_mul_of_nonneg_left (by linarith) hpos.le
    have : (n : ℚ) ≤ b := by linarith
    exact_mod_cast this
  · exact absurd h4.choose_spec.2.1 hfin

theorem dim_zero (n : Nat) (hn : 1 ≤ n) (a b : ℤ) (h0 : 0 ≤ a) :
    (uneven n).intoSBLO.dimCost 1 [a, b] [toQ (100 * (n : ℤ))] ⟨[0], 2, 1⟩ 0 =
      .ok ⟨if 0 < a then ((a : ℚ) : ECost) else 0, 0⟩ := by
  have hfr : (LoadFractions.mk [0] 2 1).selectLoads [toQ (100 * (n : ℤ))] 0 = .ok [0] := by
    simp [LoadFractions.selectLoads, LoadFractions.get, idx, bind, Except.bind, pure, Except.pure]
  have hq : toQ a = (a : ℚ) := rfl
  have hi : (uneven n).intoSBLO.hittingCost[0]? = some (CostFn.new 1 (SingleCostFn.certain fun _ l =>
      .ok (if l ≤ 1 then Cost.raw ((1 : ℚ) : ECost) else ⟨⊤, .failure .sloMaxUtilizationExceeded⟩))) := rfl
  unfold SBLO.dimCost
  rw [hfr]
  simp only [IRes.ofRes, bind, Except.bind, idx, List.getElem?_cons_zero, safeBalancing, hq]
  by_cases h : 0 < a
  · have h' : (0 : ℚ) < a := by exact_mod_cast h
    rw [if_pos h', if_pos h, hi]
    simp only
    rw [CostFn.callMean_certain _ 1 (by decide)]
    simp [ECost.mulQ, Cost.raw]
  · have h' : ¬ (0 : ℚ) < a := by exact_mod_cast h
    rw [if_neg h', if_neg h]
    simp

theorem dim_one (n : Nat) (hn : 1 ≤ n) (a b : ℤ) (h0 : 0 ≤ b) :
    (uneven n).intoSBLO.dimCost 1 [a, b] [toQ (100 * (n : ℤ))] ⟨[0], 2, 1⟩ 1 =
      if 0 < b then .ok ⟨if 100 * (n : ℤ) ≤ b then (((b : ℚ) * (1 / 2) : ℚ) : ECost) else ⊤, 0⟩
      else .error (.failure .loadToInactiveServer) := by
  have hnq : (1 : ℚ) ≤ n := by exact_mod_cast hn
  have hl' : toQ (100 * (n : ℤ)) = 100 * (n : ℚ) := by
    show ((100 * (n : ℤ) : ℤ) : ℚ) = _
    push_cast; rfl
  have hfr : (LoadFractions.mk [0] 2 1).selectLoads [toQ (100 * (n : ℤ))] 1 = .ok [100 * (n : ℚ)] := by
    have : (0 : ℚ) < 100 * n := by linarith
    simp [LoadFractions.selectLoads, LoadFractions.get, idx, bind, Except.bind, pure, Except.pure, hl', sumM,
      show 0 < n by omega, show n ≠ 0 by omega]
  have hq : toQ b = (b : ℚ) := rfl
  have hi : (uneven n).intoSBLO.hittingCost[1]? = some (CostFn.new 1 (SingleCostFn.certain fun _ l =>
      .ok (if l ≤ 1 then Cost.raw ((1 / 2 : ℚ) : ECost) else ⟨⊤, .failure .sloMaxUtilizationExceeded⟩))) := rfl
  unfold SBLO.dimCost
  rw [hfr]
  simp only [IRes.ofRes, bind, Except.bind, idx, List.getElem?_cons_zero, List.getElem?_cons_succ, safeBalancing, hq]
  by_cases h : 0 < b
  · have h' : (0 : ℚ) < b := by exact_mod_cast h
    have hle : (100 * (n : ℚ) / b ≤ 1) ↔ 100 * (n : ℤ) ≤ b := by
      rw [div_le_one h']
      exact_mod_cast Iff.rfl
    rw [if_pos h', if_pos h, hi]
    simp only
    rw [CostFn.callMean_certain _ 1 (by decide)]
    by_cases hb : 100 * (n : ℤ) ≤ b
    · simp only [if_pos (hle.2 hb), if_pos hb]
      simp [ECost.mulQ, Cost.raw]
    · simp only [if_neg (mt hle.1 hb), if_neg hb]
      simp [ECost.mulQ]
  · have h' : ¬ (0 : ℚ) < b := by exact_mod_cast h
    rw [if_neg h', if_neg h, if_pos (by linarith)]

theorem uneven_objective (n : Nat) (hn : 1 ≤ n) (a b : ℤ) (ha : 0 ≤ a) (hb : 0 ≤ b) :
    (uneven n).intoSBLO.objective 1 [a, b] [toQ (100 * (n : ℤ))] ⟨[0], 2, 1⟩ =
      if 0 < b then .ok ⟨(if 0 < a then ((a : ℚ) : ECost) else 0) +
        (if 100 * (n : ℤ) ≤ b then (((b : ℚ) * (1 / 2) : ℚ) : ECost) else ⊤), 0⟩
      else .error (.failure .loadToInactiveServer) := by
  unfold SBLO.objective
  rw [show (uneven n).intoSBLO.d.toNat = 2 from rfl, show (uneven n).intoSBLO.d = 2 from rfl]
  simp only [List.range_succ, List.range_zero, List.nil_append, List.cons_append, List.map_cons, List.map_nil, sumM]
  rw [dim_zero n hn a b ha, dim_one n hn a b hb]
  by_cases h : 0 < b
  · rw [if_pos h, if_pos h]
    simp only [assertP, IRes.ofRes, List.length_cons, List.length_nil, bind, Except.bind]
    simp only [Nat.reduceAdd, Nat.cast_ofNat, decide_true, if_true]
    congr 1
    show DCObjective.mk (_ + (_ + 0)) (0 + (0 + 0)) = _
    simp
  · rw [if_neg h, if_neg h]
    simp [assertP, IRes.ofRes, bind, Except.bind]

theorem uneven_hit (n : Nat) (hn : 1 ≤ n) (a b : ℤ) (hbox : Spec.InBox (uneven n).bounds [a, b]) :
    ∃ out, (uneven n).intoSBLO.hitCost zeroSolver 1 [a, b] = .ok ⟨if 0 < b then (if 0 < a then ((a : ℚ) : ECost) else 0) +
        (if 100 * (n : ℤ) ≤ b then (((b : ℚ) * (1 / 2) : ℚ) : ECost) else ⊤) else ⊤, out⟩ := by
  obtain ⟨a', b', e, a0, a1, b0, b1⟩ := box_two hbox
  simp only [List.cons.injEq, and_true] at e
  obtain ⟨rfl, rfl⟩ := e
  rw [SBLO.hitCost_eq zeroSolver (uneven n).intoSBLO 1 [a, b] (by decide) hbox (100 * n) rfl]
  have hz0 : Num.applyPrecisionVec [0] = [0] := by decide +kernel
  have hz : LoadFractions.new [0] 2 1 = ⟨[0], 2, 1⟩ := by rw [LoadFractions.new, hz0]
  have hlen : (initialFractions 1 1 [a, b]).length = 1 := by
    unfold initialFractions
    simp only
    split <;> simp
  have hobj := uneven_objective n hn a b a0 b0
  have hso : solverObjective 2 1 (uneven n).intoSBLO.objective [toQ (100 * (n : ℤ))] 1 [a, b] [0] =
      .ok (if 0 < b then (if 0 < a then ((a : ℚ) : ECost) else 0) +
        (if 100 * (n : ℤ) ≤ b then (((b : ℚ) * (1 / 2) : ℚ) : ECost) else ⊤) else ⊤) := by
    unfold solverObjective
    rw [hz, hobj]
    by_cases h : 0 < b
    · rw [if_pos h, if_pos h]; simp
    · rw [if_neg h, if_neg h]
  have hmin : ∀ cs, Num.minimize zeroSolver
      (solverObjective 2 1 (uneven n).intoSBLO.objective [toQ (100 * (n : ℤ))] 1 [a, b]) [(0, 1)]
      (some (initialFractions 1 1 [a, b])) cs = .ok ([0], if 0 < b then (if 0 < a then ((a : ℚ) : ECost) else 0) +
        (if 100 * (n : ℤ) ≤ b then (((b : ℚ) * (1 / 2) : ℚ) : ECost) else ⊤) else ⊤) := by
    intro cs
    unfold Num.minimize
    simp only [Option.getD_some, hlen, zeroSolver, List.length_cons, List.length_nil, List.replicate_succ,
      List.replicate_zero, Num.visit, hz0, hso, bind, Except.bind, assertP]
    simp
  unfold applyLoads
  rw [show (uneven n).intoSBLO.d.toNat = 2 from rfl]
  simp only [show (2 * 1 - 1 : Nat) = 1 from rfl, List.replicate_succ, List.replicate_zero, hmin, hz, hobj, bind,
    Except.bind, assertP]
  by_cases h : 0 < b
  · simp only [if_pos h]
    refine ⟨.success ⟨(if 0 < a then ((a : ℚ) : ECost) else 0) +
        (if 100 * (n : ℤ) ≤ b then (((b : ℚ) * (1 / 2) : ℚ) : ECost) else ⊤), 0, [[[0]]]⟩, by simp⟩
  · simp only [if_neg h]
    exact ⟨.failure .loadToInactiveServer, by simp⟩

theorem uneven_usable (n : Nat) (hn : 1 ≤ n) : Usable zeroSolver (uneven n) := by
  have hnq : (1 : ℚ) ≤ n := by exact_mod_cast hn
  refine ⟨?_, rfl, by simp [uneven], ?_, ?_⟩
  · refine (C10_slo_verify_exact (uneven n) (by simp [uneven])).1 ⟨by simp [uneven], by simp [uneven], rfl, rfl, by simp [uneven], ?_,
      ?_, ?_, ?_, ?_, ?_⟩
    · simp only [uneven, List.mem_cons, List.not_mem_nil, or_false, forall_eq_or_imp, forall_eq]
      omega
    · simp only [uneven, List.mem_cons, List.not_mem_nil, or_false, forall_eq_or_imp, forall_eq]
      exact ⟨by norm_num, by linarith⟩
    · intro k _ c hc
      have := List.mem_of_getElem? hc
      simp only [uneven, List.mem_cons, List.not_mem_nil, or_false] at this
      rcases this with rfl | rfl <;> norm_num
    · intro k l hkl hl ck cl hk hl'
      have hl2 : (l : Int) < 2 := hl
      have : k = 0 ∧ l = 1 := by omega
      obtain ⟨rfl, rfl⟩ := this
      simp only [uneven, List.getElem?_cons_zero, List.getElem?_cons_succ, Option.some.injEq] at hk hl'
      rw [← hk, ← hl']; norm_num
    · simp only [uneven, List.pairwise_cons, List.mem_singleton, forall_eq, List.not_mem_nil, false_imp_iff, implies_true,
        List.Pairwise.nil, and_true]
      linarith
    · intro t _ l hl
      have := List.mem_of_getElem? hl
      simp only [uneven, List.mem_singleton] at this
      omega
  · intro t h1 h2 x hx
    have ht : t = 1 := le_antisymm h2 h1
    subst ht
    obtain ⟨a, b, rfl, _⟩ := box_two hx
    obtain ⟨out, ho⟩ := uneven_hit n hn a b hx
    exact ⟨_, ho⟩
  · intro t h1 h2 c hc
    have ht : t = 1 := le_antisymm h2 h1
    subst ht
    obtain ⟨out, ho⟩ := uneven_hit n hn (100 * n - 1) (100 * n) (.cons ⟨by omega, le_refl _⟩ (.cons ⟨by omega, le_refl _⟩ .nil))
    have e := hc.symm.trans ho
    injection e with e
    rw [e]
    simp only [le_refl, if_true]
    rw [if_pos (by omega)]
    split <;> exact WithTop.coe_ne_top

theorem uneven_total (n : Nat) (a b : ℤ) (ha : 0 ≤ a) (hb : 0 ≤ b) (h : 100 * (n : ℤ) ≤ a + b) :
    Spec.loadTotal (uneven n) [[a, b]] = (((a : ℚ) + 1 / 2 * b + (a + 200 * n * b) : ℚ) : ECost) := by
  have qa : toQ a = (a : ℚ) := rfl
  have qb : toQ b = (b : ℚ) := rfl
  have ha' : (0 : ℚ) ≤ a := by exact_mod_cast ha
  have hb' : (0 : ℚ) ≤ b := by exact_mod_cast hb
  have hd : (uneven n).d.toNat = 2 := rfl
  have hu : Spec.upCost (uneven n).switchingCost (List.replicate 2 0) [a, b] = (a : ℚ) + 200 * n * b := by
    simp [uneven, Spec.upCost, List.replicate_succ, List.zipWith3, qa, qb, toQ_zero, max_eq_right ha', max_eq_right hb']
  have hc : Spec.loadCost (uneven n) 1 [a, b] = (((a : ℚ) + 1 / 2 * b : ℚ) : ECost) := by
    unfold Spec.loadCost
    rw [if_neg (by simpa [uneven] using h)]
    simp [uneven, Spec.weighted, qa, qb]
  unfold Spec.loadTotal
  rw [Spec.totalCost, Spec.totalCost, hd, hu, hc]
  simp only [one_mul, add_zero]
  rw [← WithTop.coe_add]

/-- The configuration lazy budgeting chooses for `uneven n` contains at least `n` of the expensive servers. -/
theorem uneven_run (S : Num.Solver) (hS : Spec.Shaped S) (randomized : Bool) (gamma : ℚ) (hg : 0 ≤ gamma) (n : Nat)
    (hn : 1 ≤ n) (hu : Usable S (uneven n)) :
    ∃ a b mem, Spec.play SLO.tEnd (alg S gamma randomized) [] none [⟨uneven n, 0⟩] = .ok ([[a, b]], mem) ∧
      0 ≤ a ∧ (n : ℤ) ≤ b ∧ 100 * (n : ℤ) ≤ a + b ∧ Spec.InBox (uneven n).bounds [a, b] := by
  obtain ⟨xs, mem, h1, h2, h3, _⟩ := C32_covers_demand_partial S hS randomized gamma hg [uneven n]
    ⟨fun p hp => by rw [List.mem_singleton] at hp; rw [hp]; exact hu, List.pairwise_singleton _ _, fun k p hp => by
      match k, hp with
      | 0, hp => simp at hp; subst hp; rfl⟩
  obtain ⟨x, rfl⟩ := List.length_eq_one_iff.1 h2
  obtain ⟨x', hx', hbox, hl, zs, z, hz1, hz2, hz3, ⟨c, hc, hopt⟩, hdom⟩ := h3 0 (uneven n) rfl
  simp only [List.getElem?_cons_zero, Option.some.injEq] at hx'
  subst hx'
  obtain ⟨a, b, rfl, a0, a1, b0, b1⟩ := box_two hbox
  have hv := hu.valid
  have hub : Spec.InBox (uneven n).bounds (uneven n).bounds := by
    unfold Spec.InBox
    rw [List.forall₂_same]
    intro u hu
    exact ⟨(hv.2.2.2.2.2.1 u hu).le, le_refl _⟩
  let hit : Int → Config ℤ → ECost := fun t x =>
    match (uneven n).intoSBLO.hitCost S t x with
    | .ok c => c.cost
    | .error _ => ⊤
  have htot : ∀ ys : Schedule ℤ, (ys.length : Int) = 1 → (∀ y ∈ ys, Spec.InBox (uneven n).bounds y) → ∃ out,
      (target S (uneven n)).toProb.alphaUnfairObjective ys 1 = .ok ⟨Spec.totalCost hit
        (Spec.upCost (uneven n).switchingCost) 1 1 (List.replicate 2 0) ys, out⟩ := by
    intro ys hy1 hy2
    exact Multi.objective_total (target S (uneven n))
      (by
        by_contra hc
        have := (C10_ssco_verify_exact (target S (uneven n))).2 hc
        rw [target_valid S (uneven n) hv] at this; simp at this) 1 hit (fun _ => True)
      (fun t e1 e2 x hx _ => by
        obtain ⟨c, hc⟩ := hu.defined t e1 e2 x hx
        rw [target_hit S (uneven n) t e1 x hx]
        exact ⟨c.output, by simp only [hit, hc]⟩) ys hy1 (fun y hy => ⟨hy2 y hy, trivial⟩)
  obtain ⟨z', rfl⟩ : ∃ z', zs = [z'] := by
    have : zs.length = 1 := by
      have : (zs.length : Int) = 1 := hz1
      omega
    exact List.length_eq_one_iff.1 this
  simp only [List.getLast?_singleton, Option.some.injEq] at hz3
  subst hz3
  obtain ⟨a', b', rfl, e0, e1, f0, f1⟩ := box_two (hz2 z' (by simp))
  obtain ⟨c', hc', hle⟩ := hopt [(uneven n).bounds] rfl (by simpa using hub)
  obtain ⟨o1, g1⟩ := htot [[a', b']] rfl hz2
  obtain ⟨o2, g2⟩ := htot [(uneven n).bounds] rfl (by simpa using hub)
  have k1 := hc.symm.trans g1
  have k2 := hc'.symm.trans g2
  injection k1 with k1
  injection k2 with k2
  rw [k1, k2] at hle
  simp only [Spec.totalCost, add_zero] at hle
  obtain ⟨cb, hcb⟩ := hu.defined 1 (le_refl _) (le_refl _) _ hub
  have hfb := hu.finite 1 (le_refl _) (le_refl _) cb hcb
  have hbe : hit 1 (uneven n).bounds = cb.cost := by simp only [hit, hcb]
  obtain ⟨cz, hcz⟩ := hu.defined 1 (le_refl _) (le_refl _) _ (hz2 [a', b'] (by simp))
  have hze : hit 1 [a', b'] = cz.cost := by simp only [hit, hcz]
  have hfz : cz.cost ≠ ⊤ := by
    intro e
    rw [hze, e, hbe] at hle
    simp only [top_add, top_le_iff, WithTop.add_eq_top, WithTop.coe_ne_top, or_false] at hle
    exact hfb hle
  have hbn := uneven_needs S hS n hn a' b' (hz2 _ (by simp)) cz hcz hfz
  have hd := hdom 1
  simp only [List.drop_succ_cons, List.drop_zero, List.sum_cons, List.sum_nil, add_zero] at hd
  refine ⟨a, b, mem, by simpa using h1, a0, by omega, ?_, hbox⟩
  have := hl (100 * n) rfl
  simpa using this

/-- With two server types the ratio of lazy budgeting, deterministic or randomised, is unbounded, whatever the optimiser:
in the optimisation the load given to a type is rounded to hundredths of the total load, so that up to a hundredth of the
servers chosen has to be of an expensive type although one of them suffices. -/
theorem C69_two_types_counterexample (R : ℚ) :
    ∃ (p : SLO ℤ) (zs : Schedule ℤ) (K : ℚ), p.d = 2 ∧ p.tEnd = 1 ∧ (∃ S, Spec.Shaped S ∧ Usable S p) ∧
      Spec.InSpace p.tEnd p.bounds zs ∧ Spec.loadTotal p zs = ((K : ℚ) : ECost) ∧
      ∀ S, Spec.Shaped S → Usable S p → ∀ (randomized : Bool) (gamma : ℚ), 0 ≤ gamma →
        ∃ xs mem, Spec.play SLO.tEnd (alg S gamma randomized) [] none [⟨p, 0⟩] = .ok (xs, mem) ∧
          Spec.InSpace p.tEnd p.bounds xs ∧ ((R * K : ℚ) : ECost) < Spec.loadTotal p xs ∧ Spec.loadTotal p xs ≠ ⊤ := by
  obtain ⟨m, hm⟩ := exists_nat_gt (2 * |R|)
  set n := m + 1 with hn
  have hnq : 2 * |R| < n := by rw [hn]; push_cast; linarith
  have hn1 : (1 : ℚ) ≤ n := by rw [hn]; push_cast; linarith [abs_nonneg R]
  have hbox1 : Spec.InBox (uneven n).bounds [100 * (n : ℤ) - 1, 1] :=
    .cons ⟨by omega, le_refl _⟩ (.cons ⟨by omega, by omega⟩ .nil)
  refine ⟨uneven n, [[100 * n - 1, 1]], _, rfl, rfl, ⟨zeroSolver, zeroSolver_shaped, uneven_usable n (by omega)⟩,
    ⟨rfl, by simpa using hbox1⟩, uneven_total n (100 * n - 1) 1 (by omega) (by omega) (by omega), ?_⟩
  intro S hS hu randomized gamma hg
  obtain ⟨a, b, mem, h1, h2, h3, h4, hx⟩ := uneven_run S hS randomized gamma hg n (by omega) hu
  refine ⟨[[a, b]], mem, h1, ?_, ?_, by rw [uneven_total n a b h2 (by omega) h4]; exact WithTop.coe_ne_top⟩
  · exact ⟨rfl, by simpa using hx⟩
  · rw [uneven_total n a b h2 (by omega) h4, WithTop.coe_lt_coe]
    have hb : (n : ℚ) ≤ b := by exact_mod_cast h3
    have ha : (0 : ℚ) ≤ a := by exact_mod_cast h2
    push_cast
    have hR : R ≤ |R| := le_abs_self R
    have : R * (100 * (n : ℚ) - 1 + 1 / 2 * 1 + (100 * n - 1 + 200 * n * 1)) ≤ |R| * (400 * n) :=
      (mul_le_mul_of_nonneg_right hR (by linarith)).trans (mul_le_mul_of_nonneg_left (by linarith) (abs_nonneg R))
    have h5 : |R| * (400 * n) < 200 * n * n := by nlinarith
    have h6 : 200 * (n : ℚ) * n ≤ 200 * n * b := mul_le_mul_of_nonneg_left hb (by linarith)
    linarith

/-- With two server types the ratio of randomised lazy budgeting is unbounded for every outcome of the draw, hence also in
expectation. -/
theorem C72_two_types_counterexample (R : ℚ) :
    ∃ (p : SLO ℤ) (zs : Schedule ℤ), p.d = 2 ∧ (∃ S, Spec.Shaped S ∧ Usable S p) ∧ Spec.InSpace p.tEnd p.bounds zs ∧
      Spec.loadTotal p zs ≠ ⊤ ∧ ∀ S, Spec.Shaped S → Usable S p → ∀ (q : ℝ → ℚ) (xs : ℝ → Schedule ℤ),
        (∀ r ∈ Set.Icc (0 : ℝ) 1, 0 ≤ q r ∧
          ∃ mem, Spec.play SLO.tEnd (alg S (q r) true) [] none [⟨p, 0⟩] = .ok (xs r, mem)) →
        ∀ r ∈ Set.Icc (0 : ℝ) 1, (R : ℝ) * realCost p zs < realCost p (xs r) := by
  obtain ⟨p, zs, K, h1, h2, h3, h4, h5, h6⟩ := C69_two_types_counterexample R
  refine ⟨p, zs, h1, h3, h4, by rw [h5]; exact WithTop.coe_ne_top, ?_⟩
  intro S hS hu q xs hxs r hr
  obtain ⟨g0, mem, g1⟩ := hxs r hr
  obtain ⟨ys, mem', g2, _, g4, g5⟩ := h6 S hS hu true (q r) g0
  have e := g1.symm.trans g2
  injection e with e
  injection e with e
  rw [← e] at g4 g5
  obtain ⟨v, hv⟩ : ∃ v : ℚ, Spec.loadTotal p (xs r) = ((v : ℚ) : ECost) := ⟨_, (WithTop.coe_untop _ g5).symm⟩
  unfold realCost
  rw [hv] at g4 ⊢
  rw [h5]
  rw [WithTop.coe_lt_coe] at g4
  simp only [WithTop.untopD_coe]
  exact_mod_cast g4

end Lb
end Soco
