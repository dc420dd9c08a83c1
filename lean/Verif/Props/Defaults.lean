import Verif.Model.Defaults
import Verif.Props.MultiGraph2
import Verif.Props.UniGraph
import Verif.Props.ApproxRatio
import Verif.Props.BudgetExact
import Verif.Props.MoreChoice
import Verif.Props.RbgRatio

/-! # C129: default options -/

namespace Soco
open Spec

section
variable {C D : Type} [OutSuccess C] [OutFailure D]

/-- **C129** Solved with all options left at their defaults, an instance gets the cheapest schedule and its cost, counted by
the plain objective. -/
theorem C129_search (p : SSCO ℤ C D) (hv : p.verify = .ok ()) (hT : 1 ≤ p.tEnd) (hit : Int → Config ℤ → ECost)
    (hhit : ∀ t : Int, 1 ≤ t → t ≤ p.tEnd → ∀ x, InBox p.bounds x → ∃ out, p.toProb.hitCost t x = .ok ⟨hit t x, out⟩)
    (hfin : ∀ t : Int, 1 ≤ t → t ≤ p.tEnd → hit t p.bounds ≠ ⊤) :
    ∃ r, Multi.searchDefault p .dflt = .ok r ∧ (r.path.xs.length : Int) = p.tEnd ∧ (∀ x ∈ r.path.xs, InBox p.bounds x) ∧
      (∃ out, p.toProb.objective r.path.xs = .ok ⟨r.path.cost, out⟩) ∧
      ∀ ys : Schedule ℤ, (ys.length : Int) = p.tEnd → (∀ y ∈ ys, InBox p.bounds y) →
        ∃ c, p.toProb.objective ys = .ok c ∧ r.path.cost ≤ c.cost := by
  obtain ⟨r, h1, h2, h3, -, h5, h6⟩ := C19_graph_search_optimal p hv hT .dflt rfl (by norm_num [OfflineOptions.dflt]) hit hhit hfin
  exact ⟨r, h1, h2, h3, h5, h6⟩

/-- **C129** `alpha_unfair` changes nothing but the weight of switching costs. -/
theorem C129_alpha (p : SSCO ℤ C D) (hv : p.verify = .ok ()) (hT : 1 ≤ p.tEnd) (hit : Int → Config ℤ → ECost)
    (hhit : ∀ t : Int, 1 ≤ t → t ≤ p.tEnd → ∀ x, InBox p.bounds x → ∃ out, p.toProb.hitCost t x = .ok ⟨hit t x, out⟩)
    (hfin : ∀ t : Int, 1 ≤ t → t ≤ p.tEnd → hit t p.bounds ≠ ⊤) (α : ℚ) (hα : 0 ≤ α) :
    ∃ r, Multi.searchDefault p (.alphaUnfair α) = .ok r ∧ (r.path.xs.length : Int) = p.tEnd ∧ (∀ x ∈ r.path.xs, InBox p.bounds x) ∧
      (∃ out, p.toProb.alphaUnfairObjective r.path.xs α = .ok ⟨r.path.cost, out⟩) ∧
      ∀ ys : Schedule ℤ, (ys.length : Int) = p.tEnd → (∀ y ∈ ys, InBox p.bounds y) →
        ∃ c, p.toProb.alphaUnfairObjective ys α = .ok c ∧ r.path.cost ≤ c.cost := by
  obtain ⟨r, h1, h2, h3, -, h5, h6⟩ := C19_graph_search_optimal p hv hT (.alphaUnfair α) rfl hα hit hhit hfin
  exact ⟨r, h1, h2, h3, h5, h6⟩

/-- **C129** In one dimension the default start is zero: the schedule found is the cheapest by the plain objective, and with
`inverted` by the inverted objective. -/
theorem C129_one (p : SSCO ℤ C D) (hv : p.verify = .ok ()) (hd : p.d = 1) (m : ℤ) (hb : p.bounds = [m]) (g : Int → ℤ → ECost)
    (hhit : ∀ t : Int, 1 ≤ t → t ≤ p.tEnd → ∀ j, 0 ≤ j → j ≤ m → ∃ out, p.toProb.hitCost t [j] = .ok ⟨g t j, out⟩)
    (hfin : ∀ t : Int, 1 ≤ t → t ≤ p.tEnd → g t m ≠ ⊤)
    (hnn : ∀ t : Int, 1 ≤ t → t ≤ p.tEnd → ∀ j, 0 ≤ j → j ≤ m → 0 ≤ g t j)
    (hconv : ∀ t : Int, 1 ≤ t → t ≤ p.tEnd → ConvexOnE m (g t)) :
    (∃ P, Uni.searchDefault p .dflt = .ok P ∧ (P.xs.length : Int) = p.tEnd ∧ (∀ x ∈ P.xs, InBox p.bounds x) ∧
      (∃ out, p.toProb.objective P.xs = .ok ⟨P.cost, out⟩) ∧
      ∀ ys : Schedule ℤ, (ys.length : Int) = p.tEnd → (∀ y ∈ ys, InBox p.bounds y) →
        ∃ c, p.toProb.objective ys = .ok c ∧ P.cost ≤ c.cost) ∧
    (∃ P, Uni.searchDefault p .onlyInverted = .ok P ∧ (P.xs.length : Int) = p.tEnd ∧ (∀ x ∈ P.xs, InBox p.bounds x) ∧
      (∃ out, p.toProb.invertedObjective P.xs = .ok ⟨P.cost, out⟩) ∧
      ∀ ys : Schedule ℤ, (ys.length : Int) = p.tEnd → (∀ y ∈ ys, InBox p.bounds y) →
        ∃ c, p.toProb.invertedObjective ys = .ok c ∧ P.cost ≤ c.cost) := by
  have h0 : (0 : ℤ) ≤ m := by
    by_contra hc
    have := (C10_ssco_verify_exact p).2
    rw [hv] at this
    have hv' : ValidSSCO p := by
      by_contra h
      exact absurd (this h) (by simp)
    have := hv'.2.2.2.2.1 m (by rw [hb]; simp)
    omega
  have e : p.toProb.defaultConfig = [0] := by
    show Config.repeat 0 p.d.toNat = _
    rw [hd]; rfl
  constructor
  · obtain ⟨P, h1, h2, h3, h4, h5⟩ := C17_optimal p hv hd m hb 0 h0 .dflt rfl (by norm_num [OfflineOptions.dflt]) g hhit hfin hnn hconv
    refine ⟨P, h1, h2, h3, ?_, ?_⟩
    · unfold Prob.objective; rw [e]; exact h4
    · unfold Prob.objective; rw [e]; exact h5
  · obtain ⟨P, h1, h2, h3, h4, h5⟩ := C17_optimal p hv hd m hb 0 h0 .onlyInverted rfl
      (by norm_num [OfflineOptions.onlyInverted, OfflineOptions.dflt]) g hhit hfin hnn hconv
    refine ⟨P, h1, h2, h3, ?_, ?_⟩
    · unfold Prob.invertedObjective; rw [e]; exact h4
    · unfold Prob.invertedObjective; rw [e]; exact h5

/-- **C129** Both graph searches refuse `l_constrained`, whatever the instance, before looking at it. -/
theorem C129_constrained (p : SSCO ℤ C D) (l : ℚ) :
    Uni.searchDefault p (.lConstrained l) = .error (.fail .unsupportedLConstrainedMovement) ∧
    (p.verify = .ok () → Multi.searchDefault p (.lConstrained l) = .error (.fail .unsupportedLConstrainedMovement)) := by
  constructor
  · rfl
  · intro hv
    have hv' : ValidSSCO p := by
      by_contra h
      have := (C10_ssco_verify_exact p).2 h
      rw [hv] at this
      simp at this
    obtain ⟨v, h1, -⟩ := Multi.allValues_grid p hv'
    show (do let v ← Multi.allValues p.bounds; Multi.graphSearch p v none (.lConstrained l)) = _
    rw [h1]
    rfl

/-- **C129** With the default options the approximate search is within a fifth of the optimum, for hitting costs that grow at
most proportionally with the servers. -/
theorem C129_approx (p : SSCO ℤ C D) (hv : p.verify = .ok ()) (hT : 1 ≤ p.tEnd) (hit : Int → Config ℤ → ECost)
    (hhit : ∀ t : Int, 1 ≤ t → t ≤ p.tEnd → ∀ x, InBox p.bounds x → ∃ out, p.toProb.hitCost t x = .ok ⟨hit t x, out⟩)
    (hfin : ∀ t : Int, 1 ≤ t → t ≤ p.tEnd → hit t p.bounds ≠ ⊤)
    (hgrow : ∀ t : Int, 1 ≤ t → t ≤ p.tEnd → GrowsAtMostBy (6 / 5) (InBox p.bounds) (hit t)) :
    ∃ r N, (∀ fuel, N ≤ fuel → Multi.approxDefault fuel p .dflt = some (.ok r)) ∧ (r.path.xs.length : Int) = p.tEnd ∧
      (∀ x ∈ r.path.xs, InBox p.bounds x) ∧ (∃ out, p.toProb.objective r.path.xs = .ok ⟨r.path.cost, out⟩) ∧
      ∀ ys : Schedule ℤ, (ys.length : Int) = p.tEnd → (∀ y ∈ ys, InBox p.bounds y) →
        ∃ c, p.toProb.objective ys = .ok c ∧ ∀ q : ℚ, c.cost = (q : ECost) → r.path.cost ≤ ((6 / 5 * q : ℚ) : ECost) := by
  have e : (2 * (11 / 10) - 1 : ℚ) = 6 / 5 := by norm_num
  obtain ⟨r, N, h1, h2, h3, h4, h5⟩ := C64_approximation_ratio p hv hT (11 / 10) (by norm_num) .dflt rfl
    (by norm_num [OfflineOptions.dflt]) hit hhit hfin (by rw [e]; exact hgrow)
  rw [e] at h5
  exact ⟨r, N, h1, h2, h3, h4, h5⟩

/-- **C129** The balanced descent algorithms have no default options: asking for them aborts, for every instance, schedule and
memory, even if the instance is one the algorithm refuses. -/
theorem C129_descent {O : Type} (alg : O → OnlineAlgorithm (SCO ℚ C D) ℚ Unit) (o : Online (SCO ℚ C D)) (xs : Schedule ℚ)
    (m : Option Unit) : (Descent.descentDefault alg).next o xs m = .error .panic := rfl

/-- **C129** With the default options the randomly biased greedy algorithm pays on average at most twice as much as any
schedule on the grid, counted by the plain objective, if one bias out of `N` equally spaced ones is used in all slots (up to a
term that vanishes for large `N`; see C77). -/
theorem C129_rbg (P : Rbg.Player) (S0 : Num.Solver) (hS : Inner (Rbg.solverOf P S0)) (hE : Exact (Rbg.solverOf P S0))
    (evict : Rbg.Cache → Rbg.Cache) (hev : ∀ c t x v, evict c t x = some v → c t x = some v) (world : Rbg.Cache)
    (u : ℚ) (hu : 0 ≤ u) (hug : OnGrid u) (f : Int → ℚ → ℚ) (hf0 : ∀ t x, 0 ≤ x → x ≤ u → 0 ≤ f t x)
    (hf : ∀ t, ConvexUpTo u (f t)) (β : ℚ) (hβ : 0 < β) (os : List (Online (SCO ℚ C D)))
    (h : ∀ (i : Nat) o, os[i]? = some o → o.w = 0 ∧ o.p.d = 1 ∧ o.p.bounds = [(0, u)] ∧ o.p.tEnd = ((i + 1 : Nat) : Int) ∧
      ∀ t : Nat, 1 ≤ t → t ≤ i + 1 → Spec.Slot o.p t (fun x => ((f t (x.headD 0) : ℚ) : ECost)) (fun x => β * |x.headD 0|))
    (N : ℕ) (hN : 0 < N) (ys : ℕ → Schedule ℚ) (k' : ℕ → Option ℚ)
    (hr : ∀ k, k < N → Run (fun p : SCO ℚ C D => p.tEnd) (Rbg.rbgDefault P evict (fun _ => spread N k) world) [] none os (ys k) (k' k))
    (zs : Schedule ℚ) (hzl : zs.length = os.length) (hzs : ∀ z ∈ zs, GridPoint [(0, u)] z) :
    ∃ (a : ℕ → ℚ) (c : ℚ),
      (∀ k, k < N → totalCost (fun t x => ((f t (x.headD 0) : ℚ) : ECost)) (fun x y => β * |(List.zipWith (· - ·) y x).headD 0|) 1 1 [0]
        (ys k) = (a k : ECost)) ∧
      totalCost (fun t x => ((f t (x.headD 0) : ℚ) : ECost)) (fun x y => β * |(List.zipWith (· - ·) y x).headD 0|) 1 1 [0] zs = (c : ECost) ∧
      (∑ k ∈ Finset.range N, a k) / N ≤ 2 * c + os.length * (β * u) / N := by
  obtain ⟨a, c, h1, h2, h3⟩ := Rbg.C77_same_draw_partial P S0 hS hE evict hev 1 one_pos world u hu hug f hf0 hf β hβ os h N hN ys k' hr
    zs hzl hzs
  exact ⟨a, c, h1, h2, by simpa only [one_mul] using h3⟩

end

/-- **C129** With the default options, lazy budgeting for balanced load with `d` server types costs at most `2 d + 5/4` times as
much as any schedule (under the assumptions of C82). -/
theorem C129_budgeting (S : Num.Solver) (hS : Exact S) (hS' : StaysFeasible S) (d : Nat) (bounds : List ℤ) (β : List ℚ)
    (ps : List (SBLO ℤ)) (g : Nat → Nat → ℚ → ECost) (h : Bb.Farm d bounds β g ps) (l : Nat → Nat → ℚ)
    (hg : ∀ k κ, Spec.ServerCost (g k κ) (l k κ)) (hl : ∀ k, ∃ κ < d, 0 < l k κ) (hit : Nat → Config ℤ → ECost)
    (hhit : ∀ (k : Nat) p, ps[k]? = some p → ∀ x, InBox bounds x → ∃ o, p.hitCost S p.tEnd x = .ok ⟨hit k x, o⟩)
    (hfin : ∀ k < ps.length, hit k bounds ≠ ⊤) :
    ∃ xs mem, play SBLO.tEnd (Bb.algDefault S) [] none (ps.map fun p => ⟨p, 0⟩) = .ok (xs, mem) ∧
      xs.length = ps.length ∧ (∀ x ∈ xs, InBox bounds x) ∧
      ∀ zs : Schedule ℤ, zs.length = ps.length → (∀ z ∈ zs, InBox bounds z) →
        farmCost hit β xs ≤ ECost.mulQ (2 * d + 5 / 4) (farmCost hit β zs) := by
  have e : (2 * (d : ℚ) + 5 / 4) = 2 * d + 1 + 1 / 4 := by ring
  rw [e]
  exact Bb.C82_exact S hS hS' d bounds β (1 / 4) (by norm_num) ps g h l hg hl hit hhit hfin

/-- **C129** Leaving the options at their defaults is the same as spelling them out, for every sequence of requests, from every
schedule and memory, also from the start, where the memory is built for the first request. -/
theorem C129_explicit {C D : Type} [OutSuccess C] [OutFailure D] (S : Num.Solver) (P : Rbg.Player) (evict : Rbg.Cache → Rbg.Cache)
    (draw : Online (SCO ℚ C D) → ℚ) (world : Rbg.Cache) :
    (∀ xs m os, play SBLO.tEnd (Bb.algDefault S) xs m os = play SBLO.tEnd (Bb.alg S (1 / 4)) xs m os) ∧
    (∀ xs m os, play (fun p : SCO ℚ C D => p.tEnd) (Rbg.rbgDefault P evict draw world) xs m os =
      play (fun p : SCO ℚ C D => p.tEnd) (Rbg.rbg P evict 1 draw world) xs m os) :=
  ⟨fun _ _ _ => rfl, fun _ _ _ => rfl⟩

/-! ## Examples -/

/-- Non-vacuity of `C129_search` and `C129_alpha`. -/
example := C129_search Ex.ssco2 (by decide +kernel) (by decide) Ex.hitBox2 Ex.ssco2_hits.slot Ex.ssco2_hits.fin
example := C129_alpha Ex.ssco2 (by decide +kernel) (by decide) Ex.hitBox2 Ex.ssco2_hits.slot Ex.ssco2_hits.fin 2 (by norm_num)

/-- Up to ten servers with costs of 3 and 1 for every active server, two slots. -/
def Ex.affine10 : SSCO ℤ Unit Unit where
  d := 1
  tEnd := 2
  bounds := [10]
  switchingCost := [2]
  hittingCost := CostFn.new 1 (SingleCostFn.certain fun _ x => .ok (Cost.raw ((((3 + x.headD 0 : ℤ) : ℚ)) : ECost)))

/-- Non-vacuity of `C129_approx`. -/
example := C129_approx Ex.affine10 (by decide +kernel) (by decide) (fun _ x => ((((3 + x.headD 0 : ℤ) : ℚ)) : ECost))
  (fun t h1 _ x hx => by
    match x, hx with
    | [j], .cons ⟨h0, hj⟩ .nil =>
      rw [Uni.hit_within (p := Ex.affine10) rfl h0 hj, Ex.affine10, CostFn.callMean_certain _ _ h1]
      exact ⟨_, rfl⟩)
  (fun _ _ _ => WithTop.coe_ne_top)
  (fun _ _ _ x y hx hy hxy q hq => by
    match x, y, hxy with
    | [a], [b], .cons ⟨_, hb⟩ .nil =>
      have hq' : ((3 + a : ℤ) : ℚ) = q := WithTop.coe_injective hq
      subst hq'
      apply WithTop.coe_le_coe.2
      simp only [List.headD_cons]
      push_cast
      linarith)

/-- Non-vacuity of `C129_one`: the instance of the examples of C17. -/
example := C129_one Ex.ssco1 (by decide +kernel) rfl 5 rfl (fun t j => (((|j - t| : ℤ) : ℚ) : ECost))
  (fun t h1 _ j h0 hj => Ex.ssco1_hit t h1 j h0 hj) (fun _ _ _ => WithTop.coe_ne_top)
  (fun t _ _ j _ _ => by
    have : (0 : ℚ) ≤ ((|j - t| : ℤ) : ℚ) := by exact_mod_cast abs_nonneg _
    exact_mod_cast this)

/-- The default options of lazy budgeting meet the hypothesis `0 < ε` of C82, whose example shows that the other hypotheses
can be met. -/
example : Bb.algDefault = fun S => Bb.alg S (1 / 4) := rfl

end Soco
