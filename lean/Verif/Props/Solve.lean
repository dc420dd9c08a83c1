import Verif.Model.Solve
import Verif.Spec.Load
import Verif.Props.LazyBudgeting
import Verif.Lemmas.Optimiser
import Verif.Props.BalancedBudgeting

/-!
# C67, C68: solving offline problems
-/

namespace Soco
namespace Offline

/-! ## C67 -/

section
variable {P R T C D : Type} [Value T] [OutSuccess C] [OutFailure D]

/-- **C67** A solution is returned exactly if an instance was generated, it is valid, and the algorithm solved it; its
cost is the objective of the returned schedule in the generated instance. -/
theorem C67_solve_ok_iff (g : Res P) (verify : P → Res Unit) (toProb : P → Prob T C D)
    (alg : P → OfflineOptions → Res R) (xsOf : R → Schedule T) (o : OfflineOptions) (xs : Schedule T) (c : Cost C D) :
    solve g verify toProb alg xsOf o = .ok (xs, c) ↔
      ∃ p r, g = .ok p ∧ verify p = .ok () ∧ alg p o = .ok r ∧ xsOf r = xs ∧ (toProb p).objective xs = .ok c := by
  unfold solve
  simp only [bind, Except.bind]
  constructor
  · intro h
    split at h
    · cases h
    rename_i p
    split at h
    · cases h
    rename_i u hu
    split at h
    · cases h
    rename_i r hr
    split at h
    · cases h
    rename_i c' hc
    injection h with h
    injection h with h1 h2
    subst h1 h2
    exact ⟨p, r, rfl, hu, hr, rfl, hc⟩
  · rintro ⟨p, r, rfl, h1, h2, rfl, h3⟩
    simp only [h1, h2, h3]

/-- **C67** An invalid instance is rejected with the failure of the verification, whatever the algorithm. -/
theorem C67_invalid_rejected (p : P) (verify : P → Res Unit) (toProb : P → Prob T C D)
    (alg : P → OfflineOptions → Res R) (xsOf : R → Schedule T) (o : OfflineOptions) (e : Fault)
    (h : verify p = .error e) : solve (.ok p) verify toProb alg xsOf o = .error e := by
  unfold solve
  simp only [bind, Except.bind, h]

end

/-- The objective of a schedule of horizon length is the specified total cost. -/
theorem objective_simplified {C D : Type} [OutSuccess C] [OutFailure D] (p : Prob ℤ C D) (β : List ℚ)
    (hs : p.Simplified β) (hβ : p.d.toNat ≤ β.length) (alpha : ℚ) (hit : Int → Config ℤ → ECost) (In : Config ℤ → Prop)
    (hIn : ∀ x, In x → x.length = p.d.toNat)
    (hh : ∀ t : Int, 1 ≤ t → t ≤ p.tEnd → ∀ x, In x → ∃ o, p.hitCost t x = .ok ⟨hit t x, o⟩)
    (ys : Schedule ℤ) (hl : (ys.length : Int) = p.tEnd) (hy : ∀ y ∈ ys, In y) :
    ∃ out, p.alphaUnfairObjective ys alpha
      = .ok ⟨Spec.totalCost hit (Spec.upCost β) alpha 1 (List.replicate p.d.toNat 0) ys, out⟩ := by
  have hlen : ∀ y ∈ p.defaultConfig :: ys, y.length = p.d.toNat := by
    intro y h
    rcases List.mem_cons.1 h with rfl | h
    · simp [Prob.defaultConfig, Config.repeat]
    · exact hIn y (hy y h)
  have key := C02_objective_eq_totalCost p ys p.defaultConfig alpha false ys.length hit
    (Spec.upCost β) (by
      intro t ht _ ht' x hx
      rw [padTo_self] at hx
      exact hh t ht ht' x (hy x hx)) (by
      rw [padTo_self]
      intro y hy' x hx
      have := Simplified.mv_ok hs p.d.toNat hβ _ hlen false y hy' x (List.mem_cons_of_mem _ hx)
      simpa [Spec.moveCost] using this)
  obtain ⟨out, ho⟩ := key
  refine ⟨out, ?_⟩
  rw [padTo_self] at ho
  unfold Prob.alphaUnfairObjective
  rw [hl.symm, ho]
  congr 2
  have hgen : ∀ (l : List (Config ℤ)) (t : Int) (prev : Config ℤ), t + l.length ≤ p.tEnd + 1 →
      Spec.totalCost (fun t x => if t > p.tEnd then 0 else hit t x) (Spec.upCost β) alpha t prev l
      = Spec.totalCost hit (Spec.upCost β) alpha t prev l := by
    intro l
    induction l with
    | nil => intros; rfl
    | cons x l ih =>
      intro t prev ht
      simp only [List.length_cons] at ht
      push_cast at ht
      simp only [Spec.totalCost]
      rw [ih (t + 1) x (by omega), if_neg (by omega)]
  exact hgen ys 1 _ (by omega)

theorem objective_plain {C D : Type} [OutSuccess C] [OutFailure D] (p : Prob ℤ C D) (xs : Schedule ℤ) :
    p.objective xs = p.alphaUnfairObjective xs 1 := rfl

section
variable {C D : Type} [OutSuccess C] [OutFailure D]

/-- **C67** Solving a verified integral instance with the graph search returns a schedule of its decision space, and no
schedule of the decision space has a smaller α-unfair objective; the cost reported is the plain objective. -/
theorem C67_optimal (p : SSCO ℤ C D) (hv : p.verify = .ok ()) (hT : 1 ≤ p.tEnd)
    (o : OfflineOptions) (hl : o.l = none) (hα : 0 ≤ o.alpha) (hit : Int → Config ℤ → ECost)
    (hhit : ∀ t : Int, 1 ≤ t → t ≤ p.tEnd → ∀ x, Spec.InBox p.bounds x →
      ∃ out, p.toProb.hitCost t x = .ok ⟨hit t x, out⟩)
    (hfin : ∀ t : Int, 1 ≤ t → t ≤ p.tEnd → hit t p.bounds ≠ ⊤) :
    ∃ xs c, solveOptimal (.ok p) none o = .ok (xs, c) ∧ Spec.InSpace p.tEnd p.bounds xs ∧
      c.cost = Spec.totalCost hit (Spec.upCost p.switchingCost) 1 1 (List.replicate p.d.toNat 0) xs ∧
      Spec.totalCost hit (Spec.upCost p.switchingCost) o.alpha 1 (List.replicate p.d.toNat 0) xs ≠ ⊤ ∧
      ∀ ys, Spec.InSpace p.tEnd p.bounds ys →
        Spec.totalCost hit (Spec.upCost p.switchingCost) o.alpha 1 (List.replicate p.d.toNat 0) xs ≤
        Spec.totalCost hit (Spec.upCost p.switchingCost) o.alpha 1 (List.replicate p.d.toNat 0) ys := by
  have hv' : Spec.ValidSSCO p := by
    by_contra hc
    have := (C10_ssco_verify_exact p).2 hc
    rw [hv] at this; simp at this
  obtain ⟨r, h1, h2, h3, h4, ⟨out, h5⟩, h6⟩ := C19_graph_search_optimal p hv hT o hl hα hit hhit hfin
  have key := fun (a : ℚ) (ys : Schedule ℤ) (hy : Spec.InSpace p.tEnd p.bounds ys) =>
    Multi.objective_total p hv' a hit (fun _ => True) (fun t a b x hx _ => hhit t a b x hx) ys hy.1
      (fun y h => ⟨hy.2 y h, trivial⟩)
  obtain ⟨out1, k1⟩ := key 1 r.path.xs ⟨h2, h3⟩
  refine ⟨r.path.xs, _, (C67_solve_ok_iff _ _ _ _ _ _ _ _).2 ⟨p, r, rfl, hv, h1, rfl, k1⟩, ⟨h2, h3⟩, rfl, ?_⟩
  obtain ⟨out2, k2⟩ := key o.alpha r.path.xs ⟨h2, h3⟩
  rw [h5] at k2
  injection k2 with k2
  injection k2 with k2
  refine ⟨k2 ▸ h4, ?_⟩
  intro ys hys
  obtain ⟨c, h7, h8⟩ := h6 ys hys.1 hys.2
  obtain ⟨out3, k3⟩ := key o.alpha ys hys
  rw [h7] at k3
  injection k3 with k3
  rw [k3, k2] at h8
  exact h8

end

/-- A one-slot instance: being inactive costs one, powering up costs two. -/
def unfair : SSCO ℤ Unit Unit where
  d := 1
  tEnd := 1
  bounds := [1]
  switchingCost := [2]
  hittingCost := CostFn.new 1 (SingleCostFn.certain fun _ x => .ok (Cost.raw (if x = [0] then ((1 : ℚ) : ECost) else 0)))

/-- With an α other than one the cost reported is not what was minimised: here another schedule has a smaller
reported cost. -/
theorem C67_unfair_counterexample :
    (solveOptimal (.ok unfair) none ⟨false, 0, none⟩).toOption.map (fun q => (q.1, q.2.cost)) =
      some ([[1]], ((2 : ℚ) : ECost)) ∧
    (unfair.toProb.objective [[0]]).toOption.map (·.cost) = some ((1 : ℚ) : ECost) := by
  constructor <;> decide +kernel

/-- The costs of a balanced-load problem as a function. -/
def balancedCost (S : Num.Solver) (p : SBLO ℤ) (t : Int) (x : Config ℤ) : ECost :=
  match p.hitCost S t x with
  | .ok c => c.cost
  | .error _ => ⊤

theorem sblo_hit (S : Num.Solver) (p : SBLO ℤ) (t : Int) (ht : 1 ≤ t) (x : Config ℤ) (hx : Spec.InBox p.bounds x) :
    (p.intoSSCO S).toProb.hitCost t x = p.hitCost S t x := by
  have hlen : x.length = p.bounds.length := (List.Forall₂.length_eq hx).symm
  exact ((C06_guarded_evaluation _ t p.bounds x hlen).1 hx).1.trans (CostFn.callMean_certain _ t ht x)

/-- **C67** The same for balanced-load problems: they are solved through a conversion, but the schedule is optimal for
the balanced-load problem itself, and so is the cost reported. -/
theorem C67_sblo_optimal (S : Num.Solver) (p : SBLO ℤ) (hv : p.verify = .ok ()) (hT : 1 ≤ p.tEnd)
    (o : OfflineOptions) (hl : o.l = none) (hα : 0 ≤ o.alpha) (hit : Int → Config ℤ → ECost)
    (hhit : ∀ t : Int, 1 ≤ t → t ≤ p.tEnd → ∀ x, Spec.InBox p.bounds x → ∃ out, p.hitCost S t x = .ok ⟨hit t x, out⟩)
    (hfin : ∀ t : Int, 1 ≤ t → t ≤ p.tEnd → hit t p.bounds ≠ ⊤) :
    ∃ xs c, solveOptimalSBLO S (.ok p) none o = .ok (xs, c) ∧ Spec.InSpace p.tEnd p.bounds xs ∧
      c.cost = Spec.totalCost hit (Spec.upCost p.switchingCost) 1 1 (List.replicate p.d.toNat 0) xs ∧
      Spec.totalCost hit (Spec.upCost p.switchingCost) o.alpha 1 (List.replicate p.d.toNat 0) xs ≠ ⊤ ∧
      ∀ ys, Spec.InSpace p.tEnd p.bounds ys →
        Spec.totalCost hit (Spec.upCost p.switchingCost) o.alpha 1 (List.replicate p.d.toNat 0) xs ≤
        Spec.totalCost hit (Spec.upCost p.switchingCost) o.alpha 1 (List.replicate p.d.toNat 0) ys := by
  have hv' : Spec.ValidSBLO p := by
    by_contra hc
    have := (C10_sblo_verify_exact p).2 hc
    rw [hv] at this; simp at this
  obtain ⟨v1, v2, v3, v4, v5, v6, v7, v8⟩ := id hv'
  have hvs : (p.intoSSCO S).verify = .ok () := (C10_ssco_verify_exact _).1 ⟨v1, v2, v3, v4, v6, v7⟩
  have hhit' : ∀ t : Int, 1 ≤ t → t ≤ (p.intoSSCO S).tEnd → ∀ x, Spec.InBox (p.intoSSCO S).bounds x →
      ∃ out, (p.intoSSCO S).toProb.hitCost t x = .ok ⟨hit t x, out⟩ := by
    intro t a b x hx
    rw [sblo_hit S p t a x hx]
    exact hhit t a b x hx
  obtain ⟨xs, c, h1, h2, _, h4⟩ := C67_optimal (p.intoSSCO S) hvs hT o hl hα hit hhit' hfin
  obtain ⟨q, r, e1, _, e3, e4, _⟩ := (C67_solve_ok_iff _ _ _ _ _ _ _ _).1 h1
  injection e1 with e1
  subst e1
  obtain ⟨out, k1⟩ := objective_simplified (p.toProb S) p.switchingCost (fun _ _ _ => rfl)
    (by simp only [SBLO.toProb]; omega) 1 hit (Spec.InBox p.bounds)
    (fun x hx => by have := List.Forall₂.length_eq hx; simp only [SBLO.toProb]; omega)
    (fun t a b x hx => hhit t a b x hx) xs h2.1 h2.2
  exact ⟨xs, _, (C67_solve_ok_iff _ _ _ _ _ _ _ _).2 ⟨p, r, rfl, hv, e3, e4, k1⟩, h2, rfl, h4⟩

/-! ## C68 -/

theorem sloSum_weighted (n : Nat) (cs : List ℚ) (x : Config ℤ) (h1 : cs.length = n) (h2 : x.length = n) :
    sloSum n cs x = .ok (Spec.weighted cs x) := by
  induction n generalizing cs x with
  | zero =>
    cases cs with
    | nil => rfl
    | cons => simp at h1
  | succ n ih =>
    match cs, x, h1, h2 with
    | c :: cs, j :: x, h1, h2 =>
      rw [sloSum, ih cs x (by simpa using h1) (by simpa using h2)]
      simp [Spec.weighted, bind, Except.bind]

theorem access_getD {p : SLO ℤ} (hv : Spec.ValidSLO p) (t : Int) (h1 : 1 ≤ t) (h2 : t ≤ p.tEnd) :
    access p.load t = some (p.load.getD (t - 1).toNat 0) ∧ 0 ≤ p.load.getD (t - 1).toNat 0 := by
  obtain ⟨_, _, _, _, v5, _, _, _, _, _, v11⟩ := hv
  have hlt : (t - 1).toNat < p.load.length := by omega
  have e : p.load[(t - 1).toNat]? = some (p.load.getD (t - 1).toNat 0) := by
    rw [List.getD_eq_getElem _ _ hlt, List.getElem?_eq_getElem hlt]
  refine ⟨?_, v11 _ (by omega) _ e⟩
  unfold access
  rw [if_pos (by omega), e]

/-- The hitting cost of a load problem is the specified one. -/
theorem slo_hit {p : SLO ℤ} (hv : Spec.ValidSLO p) (hc : (p.hittingCost.length : Int) = p.d) (t : Int) (h1 : 1 ≤ t)
    (h2 : t ≤ p.tEnd) (x : Config ℤ) (hx : Spec.InBox p.bounds x) :
    ∃ o, p.hitCost t x = .ok ⟨Spec.loadCost p t x, o⟩ := by
  have hlen : x.length = p.d.toNat := by
    have := List.Forall₂.length_eq hx
    have := hv.2.2.1
    omega
  unfold SLO.hitCost Spec.loadCost
  rw [(access_getD hv t h1 h2).1]
  simp only [show Config.total x = x.sum from rfl]
  split
  · exact ⟨_, rfl⟩
  · rw [sloSum_weighted _ _ _ (by omega) hlen]
    exact ⟨_, rfl⟩

/-- Total costs agree if all slots do. -/
theorem totalCost_congr {X : Type} (hit hit' : Int → X → ECost) (mv : X → X → ℚ) (α : ℚ) (t : Int) (prev : X)
    (xs : List X) (h : ∀ (i : Nat) x, xs[i]? = some x → hit (t + i) x = hit' (t + i) x) :
    Spec.totalCost hit mv α t prev xs = Spec.totalCost hit' mv α t prev xs := by
  induction xs generalizing t prev with
  | nil => rfl
  | cons y ys ih =>
    rw [Spec.totalCost, Spec.totalCost, ih (t + 1) y ?_]
    · have := h 0 y rfl
      simp only [Nat.cast_zero, add_zero] at this
      rw [this]
    · intro i x hx
      have := h (i + 1) x (by simpa using hx)
      push_cast at this
      rwa [show t + ((i : Int) + 1) = t + 1 + i by omega] at this

/-- **C68** (partial) Solving a load problem by the graph search, through the conversion to a balanced-load problem,
returns a schedule of the decision space which handles the load of every slot; its cost is that of the load problem. It
costs at most as much as any schedule of the decision space for whose configurations the optimiser finds a distribution
of the load. Without that restriction this fails, see `C68_rounding_counterexample`. -/
theorem C68_slo_optimal_partial (S : Num.Solver) (hS : Spec.Shaped S) (p : SLO ℤ) (hp : Lb.Usable S p)
    (hT : 1 ≤ p.tEnd) :
    ∃ xs c, solveOptimalSLO S (.ok p) none .dflt = .ok (xs, c) ∧ Spec.InSpace p.tEnd p.bounds xs ∧
      c.cost = Spec.loadTotal p xs ∧ c.cost ≠ ⊤ ∧
      (∀ (i : Nat) x, xs[i]? = some x → p.load.getD i 0 ≤ x.sum ∧ balancedCost S p.intoSBLO (i + 1) x ≠ ⊤) ∧
      ∀ ys, Spec.InSpace p.tEnd p.bounds ys →
        (∀ (i : Nat) y, ys[i]? = some y → balancedCost S p.intoSBLO (i + 1) y ≠ ⊤) →
        c.cost ≤ Spec.loadTotal p ys := by
  have hv := hp.valid
  obtain ⟨v1, v2, v3, v4, v5, v6, v7, v8, v9, v10, v11⟩ := id hv
  have hhit : ∀ t : Int, 1 ≤ t → t ≤ p.tEnd → ∀ x, Spec.InBox p.bounds x →
      ∃ out, p.intoSBLO.hitCost S t x = .ok ⟨balancedCost S p.intoSBLO t x, out⟩ := by
    intro t a b x hx
    obtain ⟨c, hc⟩ := hp.defined t a b x hx
    exact ⟨c.output, by unfold balancedCost; rw [hc]⟩
  have hub : Spec.InBox p.bounds p.bounds := by
    unfold Spec.InBox
    rw [List.forall₂_same]
    intro u hu
    exact ⟨(v6 u hu).le, le_refl _⟩
  have hvb : p.intoSBLO.verify = .ok () := (C10_sblo_verify_exact _).1 ⟨v1, v2, v3, v4, v5, v6, v7, v11⟩
  obtain ⟨xs, c0, h1, h2, _, hfull, h4⟩ := C67_sblo_optimal S p.intoSBLO hvb hT .dflt rfl (by decide)
    (balancedCost S p.intoSBLO) hhit (by
      intro t a b e
      obtain ⟨c, hc⟩ := hp.defined t a b p.bounds hub
      apply hp.finite t a b c hc
      have : balancedCost S p.intoSBLO t p.bounds = c.cost := by unfold balancedCost; rw [hc]
      rw [← this]; exact e)
  have hslot : ∀ zs, Spec.InSpace p.tEnd p.bounds zs → ∀ (i : Nat) z, zs[i]? = some z →
      balancedCost S p.intoSBLO (i + 1) z ≠ ⊤ →
      p.load.getD i 0 ≤ z.sum ∧ balancedCost S p.intoSBLO (i + 1) z = Spec.loadCost p (i + 1) z := by
    intro zs hz i z hi hne
    have hil : i < zs.length := (List.getElem?_eq_some_iff.1 hi).1
    have hit' : ((i : Int) + 1) ≤ p.tEnd := by have := hz.1; omega
    have hzb := hz.2 z (List.mem_of_getElem? hi)
    obtain ⟨hl, hl0⟩ := access_getD hv ((i : Int) + 1) (by omega) hit'
    obtain ⟨c, hc⟩ := hp.defined ((i : Int) + 1) (by omega) hit' z hzb
    have hce : balancedCost S p.intoSBLO (i + 1) z = c.cost := by unfold balancedCost; rw [hc]
    obtain ⟨g1, g2⟩ := C55_finite_cost_partial S hS p (by omega) hp.costs v3 ((i : Int) + 1) z (by omega) hzb _ hl hl0 c
      hc (hce ▸ hne)
    obtain ⟨out, g3⟩ := slo_hit hv hp.costs ((i : Int) + 1) (by omega) hit' z hzb
    rw [g2] at g3
    injection g3 with g3
    refine ⟨by simpa using g1, ?_⟩
    rw [hce]
    exact congrArg Cost.cost g3
  have hcong : ∀ zs, Spec.InSpace p.tEnd p.bounds zs →
      (∀ (i : Nat) y, zs[i]? = some y → balancedCost S p.intoSBLO (i + 1) y ≠ ⊤) →
      Spec.totalCost (balancedCost S p.intoSBLO) (Spec.upCost p.switchingCost) 1 1 (List.replicate p.d.toNat 0) zs =
        Spec.loadTotal p zs := by
    intro zs hz hne
    apply totalCost_congr
    intro i x hi
    rw [add_comm]
    exact (hslot zs hz i x hi (hne i x hi)).2
  have hne : ∀ (i : Nat) y, xs[i]? = some y → balancedCost S p.intoSBLO (i + 1) y ≠ ⊤ := by
    intro i y hi
    have := Lb.totalCost_hit_ne_top _ _ _ _ _ xs hfull i y hi
    rwa [add_comm] at this
  obtain ⟨out, k1⟩ := objective_simplified p.toProb p.switchingCost (SLO.simplified p)
    (by simp only [SLO.toProb]; omega) 1 (Spec.loadCost p) (Spec.InBox p.bounds)
    (fun x hx => by have := List.Forall₂.length_eq hx; simp only [SLO.toProb]; omega)
    (fun t a b x hx => slo_hit hv hp.costs t a b x hx) xs h2.1 h2.2
  obtain ⟨q, r, e1, _, e3, e4, _⟩ := (C67_solve_ok_iff _ _ _ _ _ _ _ _).1 h1
  injection e1 with e1
  subst e1
  refine ⟨xs, _, (C67_solve_ok_iff _ _ _ _ _ _ _ _).2 ⟨p, r, rfl, hp.verified, e3, e4, k1⟩, h2, rfl, ?_, ?_, ?_⟩
  · exact fun e => hfull ((hcong xs h2 hne).trans e)
  · intro i x hi
    exact ⟨(hslot xs h2 i x hi (hne i x hi)).1, hne i x hi⟩
  · intro ys hy hyne
    have := h4 ys hy
    rw [show (OfflineOptions.dflt).alpha = 1 from rfl] at this
    exact (hcong xs h2 hne).symm.le.trans (this.trans (hcong ys hy hyne).le)

/-- Two server types and a load of three, which one server of the first and two of the second type could share. -/
def thirds : SLO ℤ where
  d := 2
  tEnd := 1
  bounds := [1, 3]
  switchingCost := [1, 3]
  hittingCost := [2, 1]
  load := [3]

theorem thirds_two (S : Num.Solver) (hS : Spec.Shaped S) : ∀ c, thirds.intoSBLO.hitCost S 1 [1, 2] = .ok c → c.cost = ⊤ := by
  intro c hc
  apply C55_rounding_counterexample.2 S hS c
  rw [SBLO.hitCost_eq S thirds.intoSBLO 1 [1, 2] (by decide) (.cons (by decide) (.cons (by decide) .nil)) 3 rfl] at hc
  rw [SBLO.hitCost_eq S Soco.thirds.intoSBLO 1 [1, 2] (by decide) (.cons (by decide) (.cons (by decide) .nil)) 3 rfl]
  exact hc

/-- With two server types the result need not be optimal, whatever the optimiser: the loads of the types are rounded to
hundredths of the total load. Here one server of the first and two servers of the second type cost 11, but the result
costs at least 12. -/
theorem C68_rounding_counterexample :
    Spec.InSpace thirds.tEnd thirds.bounds [[1, 2]] ∧ Spec.loadTotal thirds [[1, 2]] = ((11 : ℚ) : ECost) ∧
    (∃ S, Spec.Shaped S ∧ Lb.Usable S thirds) ∧
    ∀ S, Spec.Shaped S → Lb.Usable S thirds → ∃ xs c, solveOptimalSLO S (.ok thirds) none .dflt = .ok (xs, c) ∧
      ((12 : ℚ) : ECost) ≤ c.cost := by
  have hbox : ∀ x, Spec.InBox [1, 3] x → ∃ a b : ℤ, x = [a, b] ∧ 0 ≤ a ∧ a ≤ 1 ∧ 0 ≤ b ∧ b ≤ 3 := by
    intro x h
    cases h with
    | cons h1 h =>
      cases h with
      | cons h2 h =>
        cases h
        exact ⟨_, _, rfl, h1.1, h1.2, h2.1, h2.2⟩
  refine ⟨⟨rfl, ?_⟩, by decide +kernel, ⟨Lb.gridSolver, Lb.gridSolver_shaped, ?_⟩, ?_⟩
  · intro x hx
    rw [List.mem_singleton] at hx
    subst hx
    exact .cons (by decide) (.cons (by decide) .nil)
  · refine ⟨by decide +kernel, rfl, by simp [thirds], ?_, ?_⟩
    · intro t h1 h2 x hx
      have ht : t = 1 := le_antisymm h2 h1
      subst ht
      obtain ⟨a, b, rfl, a0, a1, b0, b1⟩ := hbox x hx
      have : (thirds.intoSBLO.hitCost Lb.gridSolver 1 [a, b]).toOption.isSome := by
        interval_cases a <;> interval_cases b <;> decide +kernel
      cases h : thirds.intoSBLO.hitCost Lb.gridSolver 1 [a, b] with
      | ok c => exact ⟨c, rfl⟩
      | error e => rw [h] at this; simp [Except.toOption] at this
    · intro t h1 h2 c hc
      have ht : t = 1 := le_antisymm h2 h1
      subst ht
      have : (thirds.intoSBLO.hitCost Lb.gridSolver 1 [1, 3]).toOption.map (·.cost) = some ((5 : ℚ) : ECost) := by
        decide +kernel
      rw [show thirds.bounds = [1, 3] from rfl] at hc
      rw [hc] at this
      simp only [Except.toOption, Option.map_some, Option.some.injEq] at this
      rw [this]
      simp
  · intro S hS hu
    obtain ⟨xs, c, h1, ⟨h2, h2'⟩, h3, h4, h5, _⟩ := C68_slo_optimal_partial S hS thirds hu (by decide)
    refine ⟨xs, c, h1, ?_⟩
    obtain ⟨x, rfl⟩ : ∃ x, xs = [x] := by
      have : xs.length = 1 := by
        have : (xs.length : Int) = 1 := h2
        omega
      exact List.length_eq_one_iff.1 this
    obtain ⟨a, b, rfl, a0, a1, b0, b1⟩ := hbox x (h2' x (by simp))
    obtain ⟨g1, g2⟩ := h5 0 [a, b] rfl
    have g1' : 3 ≤ a + b := by simpa [thirds] using g1
    have hne : ¬ (a = 1 ∧ b = 2) := by
      rintro ⟨rfl, rfl⟩
      apply g2
      obtain ⟨c, hc⟩ := hu.defined 1 (by decide) (by decide) [1, 2] (h2' _ (by simp))
      have := thirds_two S hS c hc
      unfold balancedCost
      simp only [Nat.cast_zero, zero_add, hc, this]
    rw [h3]
    have : (a = 0 ∧ b = 3) ∨ (a = 1 ∧ b = 3) := by omega
    rcases this with ⟨rfl, rfl⟩ | ⟨rfl, rfl⟩ <;> decide +kernel

/-! ### One server type -/

theorem minimize_empty {S : Num.Solver} (hS : Spec.SolvesEmpty S) (f : List ℚ → Res ECost) (v : ECost) (hf : f [] = .ok v)
    (cs : List (List ℚ → Res Num.Slack)) (hc : ∀ g ∈ cs, ∃ s, g [] = .ok s) :
    Num.minimize S f [] (some []) cs = .ok ([], v) := by
  obtain ⟨h1, h2, h3⟩ := hS f [] cs
  have hv := visit_ok f cs (fun q => q = []) (fun q hq => ⟨v, hq ▸ hf⟩) (fun g hg q hq => hq ▸ hc g hg)
    (S [] f [] cs).probes (fun q hq => by rw [h1 q hq]; rfl)
  unfold Num.minimize
  simp only [Option.getD_some, List.length_nil, beq_self_eq_true, assertP, if_true, bind, Except.bind, hv, h2, h3]
  simp [Num.applyPrecisionVec, hf]

/-- The balanced-load costs of a load problem with one server type. -/
theorem one_hit {S : Num.Solver} (hS : Spec.SolvesEmpty S) (p : SLO ℤ) (hd : p.d = 1) (c : ℚ) (hc : p.hittingCost = [c])
    (m : ℤ) (hb : p.bounds = [m]) (t : Int) (ht : 1 ≤ t) (x : ℤ) (h0 : 0 ≤ x) (hx : x ≤ m) (l : ℤ)
    (hl : access p.load t = some l) (hl0 : 0 ≤ l) :
    ∃ out, p.intoSBLO.hitCost S t [x] = .ok ⟨if x < l then ⊤ else ((c * x : ℚ) : ECost), out⟩ := by
  have hbox : Spec.InBox p.intoSBLO.bounds [x] := by
    show Spec.InBox p.bounds [x]
    rw [hb]; exact .cons ⟨h0, hx⟩ .nil
  rw [SBLO.hitCost_eq S p.intoSBLO t [x] ht hbox l hl]
  have hd' : p.intoSBLO.d.toNat = 1 := by rw [show p.intoSBLO.d = 1 from hd]; rfl
  have hlq : (0 : ℚ) ≤ toQ l := toQ_nonneg.2 hl0
  have hfr : (LoadFractions.mk [] 1 1).selectLoads [toQ l] 0 = .ok [toQ l] := by
    simp only [LoadFractions.selectLoads, LoadFractions.get, List.range_one, List.mapM_cons, List.mapM_nil, idx]
    by_cases h : 0 < toQ l
    · simp [h, h.ne', sumM, bind, Except.bind, pure, Except.pure]
    · have : toQ l = 0 := le_antisymm (not_lt.1 h) hlq
      simp [this, bind, Except.bind, pure, Except.pure]
  have hobj : p.intoSBLO.objective t [x] [toQ l] ⟨[], 1, 1⟩ =
      if 0 < x then .ok ⟨if x < l then ⊤ else ((c * x : ℚ) : ECost), 0⟩
      else if 0 < l then .error (.failure .loadToInactiveServer) else .ok 0 := by
    have hdim : ∀ r, p.intoSBLO.dimCost t [x] [toQ l] ⟨[], 1, 1⟩ 0 = r → p.intoSBLO.objective t [x] [toQ l] ⟨[], 1, 1⟩ =
        (do let a ← r; .ok (a + 0)) := by
      rintro r rfl
      unfold SBLO.objective
      rw [hd', show p.intoSBLO.d = 1 from hd]
      simp [assertP, IRes.ofRes, bind, Except.bind, sumM]
    have hx0 : (0 : ℚ) < toQ x ↔ 0 < x := by rw [← toQ_zero (T := ℤ)]; exact toQ_lt
    have hl1 : (0 : ℚ) < toQ l ↔ 0 < l := by rw [← toQ_zero (T := ℤ)]; exact toQ_lt
    by_cases h1 : 0 < x
    · rw [if_pos h1]
      have hx' : (0 : ℚ) < toQ x := hx0.2 h1
      have hle : toQ l / toQ x ≤ 1 ↔ ¬ x < l := by rw [div_le_one hx', toQ_le, not_lt]
      rw [hdim (.ok ⟨if x < l then ⊤ else ((c * x : ℚ) : ECost), 0⟩)]
      · simp only [bind, Except.bind]
        congr 1
        show DCObjective.mk (_ + 0) (0 + 0) = _
        simp
      · unfold SBLO.dimCost
        rw [hfr]
        simp only [IRes.ofRes, bind, Except.bind, idx, List.getElem?_cons_zero, safeBalancing]
        rw [if_pos hx']
        simp only [SLO.intoSBLO, hc, List.map_cons, List.getElem?_cons_zero, CostFn.callMean_certain _ t ht]
        by_cases h : x < l
        · rw [if_neg (by rw [hle]; simpa using h), if_pos h]
          rfl
        · rw [if_pos (hle.2 h), if_neg h]
          simp only [Cost.raw, ECost.mulQ, WithTop.map_coe, mul_comm c]
          rfl
    by_cases h2 : 0 < l
    · rw [if_neg h1, if_pos h2, hdim (.error (.failure .loadToInactiveServer))]
      · rfl
      · unfold SBLO.dimCost
        rw [hfr]
        simp only [IRes.ofRes, bind, Except.bind, idx, List.getElem?_cons_zero, safeBalancing]
        rw [if_neg (by rwa [gt_iff_lt, hx0]), if_pos (by rwa [gt_iff_lt, hl1])]
    · rw [if_neg h1, if_neg h2]
      have : toQ l = 0 := le_antisymm (not_lt.1 (by rwa [hl1])) hlq
      rw [hdim (.ok ⟨0, 0⟩)]
      · simp only [bind, Except.bind]
        congr 1
        show DCObjective.mk (0 + 0) (0 + 0) = DCObjective.mk 0 0
        simp
      · unfold SBLO.dimCost
        rw [hfr]
        simp only [IRes.ofRes, bind, Except.bind, idx, List.getElem?_cons_zero, safeBalancing]
        rw [if_neg (by rwa [gt_iff_lt, hx0]), if_neg (by rwa [gt_iff_lt, hl1]), if_pos this]
  have hget : ∃ s, (LoadFractions.mk [] 1 1).get 0 0 [toQ l] = .ok s := by
    simp only [LoadFractions.get, idx]
    by_cases h : 0 < toQ l
    · simp [h, sumM, bind, Except.bind]
    · simp [h]
  have hinit : initialFractions 0 1 [x] = [] := by
    unfold initialFractions
    simp
  rw [hd']
  unfold applyLoads
  simp only [List.length_singleton, beq_self_eq_true, assertP, if_true, bind, Except.bind, mul_one, le_refl, decide_true,
    Nat.sub_self, List.replicate_zero]
  have hso : solverObjective 1 1 p.intoSBLO.objective [toQ l] t [x] [] =
      .ok (if x < l then ⊤ else ((c * x : ℚ) : ECost)) := by
    unfold solverObjective
    rw [show LoadFractions.new [] 1 1 = ⟨[], 1, 1⟩ from rfl, hobj]
    by_cases h1 : 0 < x
    · rw [if_pos h1]; simp
    · have hx0 : x = 0 := by omega
      rw [if_neg h1, hx0]
      by_cases h2 : 0 < l
      · rw [if_pos h2, if_pos h2]
      · rw [if_neg h2, if_neg h2]
        show Except.ok ((0 : ECost) + 0) = _
        simp
  rw [hinit, minimize_empty hS _ _ hso]
  · simp only [show LoadFractions.new [] 1 1 = ⟨[], 1, 1⟩ from rfl, hobj]
    by_cases h1 : 0 < x
    · rw [if_pos h1]; simp
    · have hx0 : x = 0 := by omega
      rw [if_neg h1, hx0]
      by_cases h2 : 0 < l
      · rw [if_pos h2, if_pos h2]; exact ⟨_, rfl⟩
      · rw [if_neg h2, if_neg h2]
        have e1 : (0 : DCObjective).energyCost = 0 := rfl
        have e2 : (0 : DCObjective).revenueLoss = 0 := rfl
        simp [e1, e2]
  · intro g hg
    simp only [List.range_one, List.map_cons, List.map_nil, List.mem_singleton] at hg
    subst hg
    obtain ⟨s, hs⟩ := hget
    exact ⟨(((-s : ℚ) : WithTop ℚ) : Num.Slack), by simp only [show LoadFractions.new [] 1 1 = ⟨[], 1, 1⟩ from rfl, hs]⟩

theorem inBox_one {m : ℤ} {x : Config ℤ} (h : Spec.InBox [m] x) : ∃ j, x = [j] ∧ 0 ≤ j ∧ j ≤ m := by
  cases h with
  | cons h1 h =>
    cases h
    exact ⟨_, rfl, h1⟩

/-- The balanced-load costs of a load problem with one server type are those of the load problem. -/
theorem one_balanced {S : Num.Solver} (hS : Spec.SolvesEmpty S) (p : SLO ℤ) (hv : Spec.ValidSLO p) (hd : p.d = 1) (c : ℚ)
    (hc : p.hittingCost = [c]) (m : ℤ) (hb : p.bounds = [m]) (t : Int) (ht : 1 ≤ t) (ht' : t ≤ p.tEnd) (x : Config ℤ)
    (hx : Spec.InBox p.bounds x) : ∃ out, p.intoSBLO.hitCost S t x = .ok ⟨Spec.loadCost p t x, out⟩ := by
  rw [hb] at hx
  obtain ⟨j, rfl, h1, h2⟩ := inBox_one hx
  obtain ⟨a1, a2⟩ := access_getD hv t ht ht'
  obtain ⟨out, ho⟩ := one_hit hS p hd c hc m hb t ht j h1 h2 _ a1 a2
  refine ⟨out, ho.trans ?_⟩
  unfold Spec.loadCost
  rw [hc]
  simp only [List.sum_cons, List.sum_nil, add_zero, Spec.weighted, List.zipWith_cons_cons, List.zipWith_nil_left]
  rfl

theorem one_usable {S : Num.Solver} (hS : Spec.SolvesEmpty S) (p : SLO ℤ)
    (hv : p.verify = .ok ()) (hd : p.d = 1) (m : ℤ) (hb : p.bounds = [m]) (c : ℚ) (hc : p.hittingCost = [c]) (h0 : 0 < c)
    (hload : ∀ l ∈ p.load, l ≤ m) : Lb.Usable S p := by
  have hlen : (p.hittingCost.length : Int) = p.d := by rw [hc, hd]; rfl
  have hv' : Spec.ValidSLO p := by
    by_contra hn
    have := (C10_slo_verify_exact p hlen.ge).2 hn
    rw [hv] at this; simp at this
  refine ⟨hv, hlen, by simp [hc, h0], ?_, ?_⟩
  · intro t h1 h2 x hx
    obtain ⟨out, ho⟩ := one_balanced hS p hv' hd c hc m hb t h1 h2 x hx
    exact ⟨_, ho⟩
  · intro t h1 h2 e he
    have hub : Spec.InBox p.bounds p.bounds := by
      unfold Spec.InBox
      rw [List.forall₂_same]
      intro u hu
      exact ⟨(hv'.2.2.2.2.2.1 u hu).le, le_refl _⟩
    obtain ⟨out, ho⟩ := one_balanced hS p hv' hd c hc m hb t h1 h2 _ hub
    rw [he] at ho
    injection ho with ho
    rw [ho]
    unfold Spec.loadCost
    rw [if_neg]
    · simp
    · have hlt : (t - 1).toNat < p.load.length := by have := hv'.2.2.2.2.1; omega
      rw [List.getD_eq_getElem _ _ hlt, hb]
      have := hload _ (List.getElem_mem hlt)
      simpa using this

/-- **C68** With one server type, solving a load problem by the graph search returns an optimal schedule: all that is
needed is that the optimiser deals with problems without variables, and that there are enough servers. -/
theorem C68_one_type_optimal (S : Num.Solver) (hS : Spec.Shaped S) (hE : Spec.SolvesEmpty S) (p : SLO ℤ)
    (hv : p.verify = .ok ()) (hd : p.d = 1) (m : ℤ) (hb : p.bounds = [m]) (c : ℚ) (hc : p.hittingCost = [c]) (h0 : 0 < c)
    (hT : 1 ≤ p.tEnd) (hload : ∀ l ∈ p.load, l ≤ m) :
    ∃ xs c, solveOptimalSLO S (.ok p) none .dflt = .ok (xs, c) ∧ Spec.InSpace p.tEnd p.bounds xs ∧
      c.cost = Spec.loadTotal p xs ∧ c.cost ≠ ⊤ ∧ (∀ i x, xs[i]? = some x → p.load.getD i 0 ≤ x.sum) ∧
      ∀ ys, Spec.InSpace p.tEnd p.bounds ys → c.cost ≤ Spec.loadTotal p ys := by
  have hu := one_usable hE p hv hd m hb c hc h0 hload
  obtain ⟨xs, e, h1, h2, h3, h4, h5, h6⟩ := C68_slo_optimal_partial S hS p hu hT
  refine ⟨xs, e, h1, h2, h3, h4, fun i x hi => (h5 i x hi).1, ?_⟩
  intro ys hy
  by_cases ht : Spec.loadTotal p ys = ⊤
  · rw [ht]; exact le_top
  · apply h6 ys hy
    intro i y hi
    have := Lb.totalCost_hit_ne_top _ _ _ _ _ ys ht i y hi
    have hil : i < ys.length := (List.getElem?_eq_some_iff.1 hi).1
    obtain ⟨out, ho⟩ := one_balanced hE p hu.valid hd c hc m hb ((i : Int) + 1) (by omega)
      (by have := hy.1; omega) y (hy.2 y (List.mem_of_getElem? hi))
    unfold balancedCost
    rw [ho]
    rwa [add_comm] at this

/-! ## The hypotheses are met -/

example (o : OfflineOptions) (hl : o.l = none) (hα : 0 ≤ o.alpha) := C67_optimal Ex.ssco2 (by decide +kernel) (by decide) o hl hα Ex.hitBox2
  (fun t ht _ x hx => Ex.ssco2_hitBox t ht x hx) (fun t h1 h2 => Ex.ssco2_top t h1 h2)

/-- A solver that evaluates nothing and returns the lower bounds. -/
def lazySolver : Num.Solver := fun bounds _ _ _ => ⟨[], bounds.map Prod.fst, .done⟩

/-- One server type, three slots. -/
def oneType : SLO ℤ where
  d := 1
  tEnd := 3
  bounds := [2]
  switchingCost := [3]
  hittingCost := [1]
  load := [2, 0, 1]

example := C68_one_type_optimal lazySolver (fun _ _ _ _ => by simp [lazySolver])
  (fun _ _ _ => ⟨by simp [lazySolver], rfl, rfl⟩) oneType (by decide +kernel) rfl 2 rfl 1 rfl (by norm_num) (by decide)
  (by decide)

example : (solveOptimalSLO lazySolver (.ok oneType) none .dflt).toOption.map (fun q => (q.1, q.2.cost)) =
    some ([[2], [1], [1]], ((10 : ℚ) : ECost)) := by decide +kernel

end Offline
end Soco
