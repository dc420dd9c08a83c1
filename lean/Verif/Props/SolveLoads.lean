import Verif.Lemmas.Cover
import Verif.Props.Hundredths
import Verif.Props.IntoSCO
import Verif.Props.Static

/-!
# C98: static and approximate solutions of load problems
-/

namespace Soco.Offline
open Soco Soco.Spec

theorem inBoxes_iff {bounds : List ℤ} {x : Config ℤ} : InBoxes (bounds.map fun u => (0, u)) x ↔ InBox bounds x := by
  unfold InBoxes InBox
  rw [List.forall₂_map_left_iff]

/-- **C98** (partial) The static solver for balanced-load problems returns the cheapest configuration to keep, and its
cost, if the least costs of configurations are quasi-convex in every number of servers. In general they are not, see
`C98_static_balanced_counterexample`. -/
theorem C98_static_balanced_partial (S : Num.Solver) (p : SBLO ℤ) (hv : p.verify = .ok ()) (hT : 1 ≤ p.tEnd)
    (o : OfflineOptions) (ho : o.inverted = false) (hl : o.l = none ∨ o.l = some 0) (hit : Int → Config ℤ → ECost)
    (hhit : ∀ t : Int, 1 ≤ t → t ≤ p.tEnd → ∀ x, InBox p.bounds x → ∃ out, p.hitCost S t x = .ok ⟨hit t x, out⟩)
    (F : Config ℤ → ECost) (hF : ∀ x, InBox p.bounds x → F x =
      totalCost hit (upCost p.switchingCost) 1 1 (List.replicate p.d.toNat 0) (List.replicate p.tEnd.toNat x))
    (hq : QuasiConvexMarginals F (p.bounds.map fun u => (0, u))) (hfin : ∃ x, InBox p.bounds x ∧ F x ≠ ⊤) :
    ∃ x c, solveStaticSBLO S (.ok p) o = .ok (List.replicate p.tEnd.toNat x, c) ∧ InBox p.bounds x ∧
      c.cost = totalCost hit (upCost p.switchingCost) 1 1 (List.replicate p.d.toNat 0) (List.replicate p.tEnd.toNat x) ∧
      ∀ y, InBox p.bounds y → c.cost ≤
        totalCost hit (upCost p.switchingCost) 1 1 (List.replicate p.d.toNat 0) (List.replicate p.tEnd.toNat y) := by
  have hv' : ValidSBLO p := by
    by_contra hc
    have := (C10_sblo_verify_exact p).2 hc
    rw [hv] at this; simp at this
  obtain ⟨v1, v2, v3, v4, v5, v6, v7, v8⟩ := id hv'
  have hvs : (p.intoSSCO S).verify = .ok () := (C10_ssco_verify_exact _).1 ⟨v1, v2, v3, v4, v6, v7⟩
  have hvs' : ValidSSCO (p.intoSSCO S) := ⟨v1, v2, v3, v4, v6, v7⟩
  have hlen : ∀ x, InBox p.bounds x → (x.length : Int) = p.d := by
    intro x hx
    have := List.Forall₂.length_eq hx
    omega
  have hspace : ∀ x, InBox p.bounds x → InSpace p.tEnd p.bounds (List.replicate p.tEnd.toNat x) := by
    intro x hx
    refine ⟨by simp; omega, ?_⟩
    intro y hy
    rw [List.eq_of_mem_replicate hy]; exact hx
  have hobj : ∀ x, InBox p.bounds x → ∃ out,
      (p.intoSSCO S).intoSCO.toProb.objective (List.replicate p.tEnd.toNat x) = .ok ⟨F x, out⟩ := by
    intro x hx
    rw [C04_into_sco_preserves_objective (p.intoSSCO S) _ (by simp [SBLO.intoSSCO]; omega) hT (by show 0 ≤ p.d; omega)
      (by intro y hy; rw [List.eq_of_mem_replicate hy]; exact hlen x hx) v4, hF x hx]
    exact objective_simplified (p.intoSSCO S).toProb p.switchingCost (SSCO.simplified _)
      (by show p.d.toNat ≤ _; omega) 1 hit (InBox p.bounds)
      (fun x hx => by have := hlen x hx; show x.length = p.d.toNat; omega)
      (fun t a b x hx => by
        obtain ⟨out, ho⟩ := hhit t a b x hx
        exact ⟨out, by rw [sblo_hit S p t a x hx]; exact ho⟩)
      (List.replicate p.tEnd.toNat x) (hspace x hx).1 (hspace x hx).2
  obtain ⟨x, s1, s2, s3⟩ := C26_static_partial (p.intoSSCO S).intoSCO o ho hl F
    (by show ((p.bounds.map _).length : Int) = p.d; rw [List.length_map]; exact v3)
    (by
      intro b hb
      change b ∈ p.bounds.map _ at hb
      rw [List.mem_map] at hb
      obtain ⟨u, hu, rfl⟩ := hb
      exact (v6 u hu).le)
    (fun x hx => hobj x (inBoxes_iff.1 hx)) hq
    (by
      obtain ⟨x, h1, h2⟩ := hfin
      exact ⟨x, inBoxes_iff.2 h1, h2⟩)
  have hx : InBox p.bounds x := inBoxes_iff.1 s2
  obtain ⟨out, k1⟩ := objective_simplified (p.toProb S) p.switchingCost (fun _ _ _ => rfl)
    (by simp only [SBLO.toProb]; omega) 1 hit (InBox p.bounds)
    (fun x hx => by have := hlen x hx; simp only [SBLO.toProb]; omega)
    (fun t a b x hx => hhit t a b x hx) (List.replicate p.tEnd.toNat x) (hspace x hx).1 (hspace x hx).2
  refine ⟨x, _, (C67_solve_ok_iff _ _ _ _ _ _ _ _).2 ⟨p, _, rfl, hv, s1, rfl, k1⟩, hx, rfl, ?_⟩
  intro y hy
  have := s3 y (inBoxes_iff.2 hy)
  rw [hF x hx, hF y hy] at this
  exact this

/-! ### Load problems -/

theorem upCost_self (β : List ℚ) (x : List ℤ) : upCost β x x = 0 := by
  induction x generalizing β with
  | nil => cases β <;> rfl
  | cons j x ih =>
    cases β with
    | nil => rfl
    | cons b β => rw [upCost_cons, ih]; simp

theorem upCost_zero (β : List ℚ) (x : List ℤ) (hx : ∀ j ∈ x, 0 ≤ j) (n : Nat) (hn : x.length ≤ n) :
    upCost β (List.replicate n 0) x = weighted β x := by
  induction x generalizing β n with
  | nil => cases β <;> cases n <;> rfl
  | cons j x ih =>
    cases β with
    | nil => rfl
    | cons b β =>
      obtain ⟨m, rfl⟩ : ∃ m, n = m + 1 := ⟨n - 1, by simp at hn; omega⟩
      rw [List.replicate_succ, upCost_cons, ih β (fun j h => hx j (by simp [h])) m (by simpa using hn), Cover.weighted_cons]
      have : (0 : ℚ) ≤ j := by exact_mod_cast hx j (by simp)
      have e : toQ j = (j : ℚ) := rfl
      simp [e, toQ_zero, this]

/-- The largest load. -/
def peak (p : SLO ℤ) : ℤ := (p.load.take p.tEnd.toNat).foldr max 0

theorem peak_le {p : SLO ℤ} {m : ℤ} (hm : 0 ≤ m) : peak p ≤ m ↔ ∀ l ∈ p.load.take p.tEnd.toNat, l ≤ m := by
  unfold peak
  induction p.load.take p.tEnd.toNat with
  | nil => simpa using hm
  | cons a ls ih => simp [ih]

theorem stay_cost (p : SLO ℤ) (x : Config ℤ) (n : Nat) (k : Nat) :
    totalCost (loadCost p) (upCost p.switchingCost) 1 ((k : Int) + 1) x (List.replicate n x) =
      if ∃ i, i < n ∧ x.sum < p.load.getD (k + i) 0 then ⊤ else (((n : ℚ) * weighted p.hittingCost x : ℚ) : ECost) := by
  induction n generalizing k with
  | zero => simp [totalCost]
  | succ n ih =>
    rw [List.replicate_succ, totalCost, upCost_self, show ((k : Int) + 1 + 1) = ((k + 1 : Nat) : Int) + 1 by push_cast; rfl, ih (k + 1)]
    unfold loadCost
    rw [show ((k : Int) + 1 - 1).toNat = k by omega]
    have hiff : (∃ i, i < n + 1 ∧ x.sum < p.load.getD (k + i) 0) ↔
        x.sum < p.load.getD k 0 ∨ ∃ i, i < n ∧ x.sum < p.load.getD (k + 1 + i) 0 := by
      constructor
      · rintro ⟨i, h1, h2⟩
        cases i with
        | zero => exact .inl (by simpa using h2)
        | succ i => exact .inr ⟨i, by omega, by rwa [show k + 1 + i = k + (i + 1) by omega]⟩
      · rintro (h | ⟨i, h1, h2⟩)
        · exact ⟨0, by omega, by simpa using h⟩
        · exact ⟨i + 1, by omega, by rwa [show k + (i + 1) = k + 1 + i by omega]⟩
    by_cases h1 : x.sum < p.load.getD k 0
    · rw [if_pos h1, if_pos (hiff.2 (.inl h1))]; simp
    · rw [if_neg h1]
      by_cases h2 : ∃ i, i < n ∧ x.sum < p.load.getD (k + 1 + i) 0
      · rw [if_pos h2, if_pos (hiff.2 (.inr h2))]; simp
      · rw [if_neg h2, if_neg (fun h => (hiff.1 h).elim h1 h2)]
        push_cast
        rw [← WithTop.coe_add]
        norm_cast
        simp
        ring

/-- What keeping a configuration costs: it has to have a server for every unit of the largest load. -/
theorem static_cost (p : SLO ℤ) (hv : ValidSLO p) (hc : (p.hittingCost.length : Int) = p.d) (hT : 1 ≤ p.tEnd)
    (x : Config ℤ) (hx : InBox p.bounds x) : loadTotal p (List.replicate p.tEnd.toNat x) =
      Cover.cover (peak p) (List.zipWith (fun c b => (p.tEnd.toNat : ℚ) * c + b) p.hittingCost p.switchingCost) x := by
  obtain ⟨v1, v2, v3, v4, v5, v6, v7, v8, v9, v10, v11⟩ := id hv
  have hxl := List.Forall₂.length_eq hx
  have hx0 := InBox.nonneg hx
  have hs0 : 0 ≤ x.sum := List.sum_nonneg hx0
  have h1 : loadTotal p (List.replicate p.tEnd.toNat x) = ((weighted p.switchingCost x : ℚ) : ECost) +
      totalCost (loadCost p) (upCost p.switchingCost) 1 (((0 : Nat) : Int) + 1) x (List.replicate p.tEnd.toNat x) := by
    obtain ⟨n, hn⟩ : ∃ n, p.tEnd.toNat = n + 1 := ⟨p.tEnd.toNat - 1, by omega⟩
    unfold loadTotal
    rw [hn, List.replicate_succ, totalCost, totalCost, upCost_self, upCost_zero _ _ hx0 _ (by omega)]
    simp only [Nat.cast_zero, zero_add, mul_zero, one_mul, WithTop.coe_zero, add_zero]
    rw [← add_assoc, add_comm (loadCost p 1 x)]
  rw [h1, stay_cost]
  have hw : weighted (List.zipWith (fun c b => (p.tEnd.toNat : ℚ) * c + b) p.hittingCost p.switchingCost) x =
      weighted p.switchingCost x + (p.tEnd.toNat : ℚ) * weighted p.hittingCost x := by
    have : ∀ (cs bs : List ℚ) (x : List ℤ) (n : ℚ), cs.length = bs.length →
        weighted (List.zipWith (fun c b => n * c + b) cs bs) x = weighted bs x + n * weighted cs x := by
      intro cs
      induction cs with
      | nil => intro bs x n h; cases bs <;> simp_all [weighted]
      | cons c cs ih =>
        intro bs x n h
        match bs, x, h with
        | b :: bs, [], _ => simp [weighted]
        | b :: bs, j :: x, h =>
          rw [List.zipWith_cons_cons, Cover.weighted_cons, Cover.weighted_cons, Cover.weighted_cons, ih bs x n (by simpa using h)]
          ring
    exact this _ _ _ _ (by omega)
  unfold Cover.cover
  rw [hw]
  have hiff : (∃ i, i < p.tEnd.toNat ∧ x.sum < p.load.getD (0 + i) 0) ↔ x.sum < peak p := by
    rw [← not_le, peak_le hs0]
    push Not
    constructor
    · rintro ⟨i, h1, h2⟩
      exact ⟨_, Whole.getD_mem_take p.load i p.tEnd.toNat h1 (by omega), by simpa using h2⟩
    · rintro ⟨l, h1, h2⟩
      rw [List.mem_take_iff_getElem] at h1
      obtain ⟨i, h3, h4⟩ := h1
      refine ⟨i, by omega, ?_⟩
      rw [Nat.zero_add, List.getD_eq_getElem _ _ (by omega), h4]
      exact h2
  by_cases h : x.sum < peak p
  · rw [if_pos h, if_pos (hiff.2 h)]; simp
  · rw [if_neg h, if_neg (fun h' => h (hiff.1 h'))]
    norm_cast

/-- The loads are zero or divisors of 100, or there is one type only. -/
def Divisible (p : SLO ℤ) : Prop := p.d = 1 ∨ ∀ l ∈ p.load.take p.tEnd.toNat, l = 0 ∨ l ∣ 100

theorem same_hit (S : Num.Solver) (hS : Exact S) (hS' : StaysFeasible S) (p : SLO ℤ) (hv : ValidSLO p)
    (hc : (p.hittingCost.length : Int) = p.d) (hdiv : Divisible p) (t : Int) (h1 : 1 ≤ t) (h2 : t ≤ p.tEnd) (x : Config ℤ)
    (hx : InBox p.bounds x) : ∃ out, p.intoSBLO.hitCost S t x = .ok ⟨loadCost p t x, out⟩ := by
  obtain ⟨a1, a2⟩ := access_getD hv t h1 h2
  obtain ⟨v1, v2, v3, v4, v5, _⟩ := id hv
  obtain ⟨c, c', g1, g2, g3⟩ := C55_same_cost S hS hS' p (by omega) hc v3 t h1 x hx _ a1 a2 (by
    rcases hdiv with h | h
    · exact .inr (.inr h)
    · rcases h _ (Whole.getD_mem_take p.load (t - 1).toNat p.tEnd.toNat (by omega) (by omega)) with h | h
      · exact .inl h
      · exact .inr (.inl h))
  obtain ⟨out, g4⟩ := slo_hit hv hc t h1 h2 x hx
  rw [g2] at g4
  refine ⟨c.output, ?_⟩
  rw [g1, ← show c.cost = loadCost p t x from g3.trans (congrArg Cost.cost (Except.ok.inj g4))]

/-- **C98** With an exact solver the static solver for load problems returns the cheapest configuration to keep among
those of the decision space, and its cost, if every load is zero or a divisor of 100, or if there is one type of servers
only. -/
theorem C98_static_load (S : Num.Solver) (hS : Exact S) (hS' : StaysFeasible S) (p : SLO ℤ) (hv : p.verify = .ok ())
    (hc : (p.hittingCost.length : Int) = p.d) (hT : 1 ≤ p.tEnd)
    (hcap : ∀ l ∈ p.load.take p.tEnd.toNat, l ≤ p.bounds.sum)
    (hdiv : p.d = 1 ∨ ∀ l ∈ p.load.take p.tEnd.toNat, l = 0 ∨ l ∣ 100)
    (o : OfflineOptions) (ho : o.inverted = false) (hl : o.l = none ∨ o.l = some 0) :
    ∃ x c, solveStaticSLO S (.ok p) o = .ok (List.replicate p.tEnd.toNat x, c) ∧ InBox p.bounds x ∧
      c.cost = loadTotal p (List.replicate p.tEnd.toNat x) ∧ c.cost ≠ ⊤ ∧
      ∀ y, InBox p.bounds y → c.cost ≤ loadTotal p (List.replicate p.tEnd.toNat y) := by
  have hval : ValidSLO p := by
    by_contra h
    have := (C10_slo_verify_exact p hc.ge).2 h
    rw [hv] at this; simp at this
  obtain ⟨v1, v2, v3, v4, v5, v6, v7, v8, v9, v10, v11⟩ := id hval
  have hub : InBox p.bounds p.bounds := by
    unfold InBox
    rw [List.forall₂_same]
    intro u hu
    exact ⟨(v6 u hu).le, le_refl _⟩
  have hvb : p.intoSBLO.verify = .ok () := (C10_sblo_verify_exact _).1 ⟨v1, v2, v3, v4, v5, v6, v7, v11⟩
  have hfull : Cover.cover (peak p) (List.zipWith (fun c b => (p.tEnd.toNat : ℚ) * c + b) p.hittingCost p.switchingCost)
      p.bounds ≠ ⊤ :=
    Cover.cover_ne_top.2 ((peak_le (List.sum_nonneg fun u hu => (v6 u hu).le)).2 hcap)
  obtain ⟨x, c0, h1, h2, h3, h4⟩ := C98_static_balanced_partial S p.intoSBLO hvb hT o ho hl (loadCost p)
    (same_hit S hS hS' p hval hc hdiv)
    (Cover.cover (peak p) (List.zipWith (fun c b => (p.tEnd.toNat : ℚ) * c + b) p.hittingCost p.switchingCost))
    (fun x hx => (static_cost p hval hc hT x hx).symm)
    (Cover.cover_marginals _ _ _) ⟨p.bounds, hub, hfull⟩
  obtain ⟨q, r, e1, _, e3, e4, _⟩ := (C67_solve_ok_iff _ _ _ _ _ _ _ _).1 h1
  injection e1 with e1
  subst e1
  have hspace : InSpace p.tEnd p.bounds (List.replicate p.tEnd.toNat x) := by
    refine ⟨by simp; omega, ?_⟩
    intro y hy
    rw [List.eq_of_mem_replicate hy]; exact h2
  obtain ⟨out, k1⟩ := objective_simplified p.toProb p.switchingCost (SLO.simplified p)
    (by simp only [SLO.toProb]; omega) 1 (loadCost p) (InBox p.bounds)
    (fun x hx => by have := List.Forall₂.length_eq hx; simp only [SLO.toProb]; omega)
    (fun t a b x hx => slo_hit hval hc t a b x hx) _ hspace.1 hspace.2
  refine ⟨x, _, (C67_solve_ok_iff _ _ _ _ _ _ _ _).2 ⟨p, r, rfl, hv, e3, e4, k1⟩, h2, rfl, ?_, ?_⟩
  · have := h4 p.bounds hub
    intro htop
    apply hfull
    rw [← static_cost p hval hc hT p.bounds hub]
    refine top_le_iff.1 (le_trans (le_of_eq ?_) this)
    rw [h3]
    exact htop.symm
  · intro y hy
    exact h3.symm.le.trans (h4 y hy)

/-- Without the restriction to certain loads the result need not be optimal, whatever the solver: see
`C68_rounding_counterexample`, where one server of the first and two of the second type would cost 11. -/
theorem C98_static_rounding_counterexample :
    InBox thirds.bounds [1, 2] ∧ loadTotal thirds [[1, 2]] = ((11 : ℚ) : ECost) ∧
    (∃ c, solveStaticSLO Lb.gridSolver (.ok thirds) .dflt = .ok ([[0, 3]], c) ∧ c.cost = ((12 : ℚ) : ECost)) := by
  refine ⟨.cons (by decide) (.cons (by decide) .nil), by decide +kernel, ?_⟩
  have : (solveStaticSLO Lb.gridSolver (.ok thirds) .dflt).toOption.map (fun q => (q.1, q.2.cost)) =
      some ([[0, 3]], ((12 : ℚ) : ECost)) := by decide +kernel
  cases h : solveStaticSLO Lb.gridSolver (.ok thirds) .dflt with
  | error e => rw [h] at this; simp [Except.toOption] at this
  | ok q =>
    rw [h] at this
    simp only [Except.toOption, Option.map_some, Option.some.injEq, Prod.mk.injEq] at this
    exact ⟨q.2, by rw [← this.1], this.2⟩

/-- One unit of load per server of the first type, three per server of the second. -/
def wide : SBLO ℤ where
  d := 2
  tEnd := 1
  bounds := [3, 1]
  switchingCost := [1 / 100, 1 / 100]
  hittingCost := [CostFn.new 1 (SingleCostFn.certain fun _ y => .ok (Cost.raw (if y ≤ 1 then ((1 : ℚ) : ECost) else ⊤))),
    CostFn.new 1 (SingleCostFn.certain fun _ y => .ok (Cost.raw (if y ≤ 3 then ((31 / 10 : ℚ) : ECost) else ⊤)))]
  load := [3]

/-- With several units of load per server, the static solver for balanced-load problems does not return the cheapest
configuration: it keeps one server of the second type, but three servers of the first type are cheaper. The costs of
servers are convex and increasing. -/
theorem C98_static_balanced_counterexample :
    (solveStaticSBLO Lb.gridSolver (.ok wide) .dflt).toOption.map (fun q => (q.1, q.2.cost)) =
      some ([[0, 1]], ((311 / 100 : ℚ) : ECost)) ∧
    ((wide.toProb Lb.gridSolver).objective [[3, 0]]).toOption.map (·.cost) = some ((303 / 100 : ℚ) : ECost) := by
  constructor <;> decide +kernel

/-- Non-vacuity: two types, three slots. -/
example : ∃ S : Num.Solver, ∃ x c, solveStaticSLO S (.ok ⟨2, 3, [17, 40], [1, 2], [2, 1], [50, 0, 25]⟩) .dflt =
    .ok (List.replicate 3 x, c) ∧ c.cost ≠ ⊤ := by
  obtain ⟨S, h1, h2⟩ := exists_exact_feasible
  obtain ⟨x, c, g1, _, _, g4, _⟩ := C98_static_load S h1 h2 ⟨2, 3, [17, 40], [1, 2], [2, 1], [50, 0, 25]⟩
    (by decide +kernel) rfl (by decide) (by decide +kernel) (.inr (by decide)) .dflt rfl (.inl rfl)
  exact ⟨S, x, c, g1, g4⟩

/-! ### Approximation -/

/-- **C98** The approximation scheme for balanced-load problems with non-negative, increasing costs of servers: the cost
reported is that of the schedule returned, and at most `2 * γ - 1` times that of any schedule of the decision space. -/
theorem C98_balanced_approximation (S : Num.Solver) (hS : Exact S) (hS' : StaysFeasible S) (p : SBLO ℤ)
    (hv : p.verify = .ok ()) (hT : 1 ≤ p.tEnd) (hlen : p.d ≤ p.hittingCost.length) (f : Int → Nat → ℚ → ECost)
    (hf : ∀ t : Int, 1 ≤ t → t ≤ p.tEnd → ∀ (k : Nat) (g : CostFn ℚ Unit DCFailure), p.hittingCost[k]? = some g →
      ∀ y : ℚ, 0 ≤ y → ∃ o, g.callMean t y = .ok ⟨f t k y, o⟩)
    (h0 : ∀ (t : Int) (k : Nat) (a : ℚ), 0 ≤ a → 0 ≤ f t k a)
    (hmono : ∀ (t : Int) (k : Nat) (a b : ℚ), 0 ≤ a → a ≤ b → f t k a ≤ f t k b)
    (hfin : ∀ t : Int, 1 ≤ t → t ≤ p.tEnd → balancedCost S p t p.bounds ≠ ⊤)
    (γ : ℚ) (hγ : 1 < γ) (o : OfflineOptions) (hl : o.l = none) (hα : o.alpha = 1) :
    ∃ xs c N, (∀ fuel, N ≤ fuel → solveApproxSBLO S fuel (.ok p) none γ o = some (.ok (xs, c))) ∧
      InSpace p.tEnd p.bounds xs ∧
      c.cost = totalCost (balancedCost S p) (upCost p.switchingCost) 1 1 (List.replicate p.d.toNat 0) xs ∧
      ∀ ys, InSpace p.tEnd p.bounds ys → ∀ q : ℚ,
        totalCost (balancedCost S p) (upCost p.switchingCost) 1 1 (List.replicate p.d.toNat 0) ys = (q : ECost) →
        c.cost ≤ (((2 * γ - 1) * q : ℚ) : ECost) := by
  have hv' : ValidSBLO p := by
    by_contra hc
    have := (C10_sblo_verify_exact p).2 hc
    rw [hv] at this; simp at this
  obtain ⟨v1, v2, v3, v4, v5, v6, v7, v8⟩ := id hv'
  have hload : ∀ t : Int, 1 ≤ t → t ≤ p.tEnd → ∃ l, access p.load t = some l ∧ 0 ≤ l := by
    intro t h1 h2
    have hlt : (t - 1).toNat < p.load.length := by omega
    refine ⟨p.load[(t - 1).toNat], ?_, v8 (t - 1).toNat (by omega) _ (List.getElem?_eq_getElem hlt)⟩
    unfold access
    rw [if_pos (by omega), List.getElem?_eq_getElem hlt]
  have hhit : ∀ t : Int, 1 ≤ t → t ≤ p.tEnd → ∀ x, InBox p.bounds x →
      ∃ out, p.hitCost S t x = .ok ⟨balancedCost S p t x, out⟩ := by
    intro t h1 h2 x hx
    obtain ⟨l, hl, hl0⟩ := hload t h1 h2
    obtain ⟨c, hc⟩ := hitCost_defined S hS hS' p (by omega) v3 hlen t h1 l hl hl0 (f t) (hf t h1 h2) x hx
    exact ⟨c.output, by unfold balancedCost; rw [hc]⟩
  have hobj1 : ∀ ys, InSpace p.tEnd p.bounds ys → ∃ out, (p.intoSSCO S).toProb.alphaUnfairObjective ys 1 =
      .ok ⟨totalCost (balancedCost S p) (upCost p.switchingCost) 1 1 (List.replicate p.d.toNat 0) ys, out⟩ := by
    intro ys hy
    exact objective_simplified (p.intoSSCO S).toProb p.switchingCost (SSCO.simplified _)
      (by show p.d.toNat ≤ _; omega) 1 (balancedCost S p) (InBox p.bounds)
      (fun x hx => by have := List.Forall₂.length_eq hx; show x.length = p.d.toNat; omega)
      (fun t a b x hx => by
        obtain ⟨out, ho⟩ := hhit t a b x hx
        exact ⟨out, by rw [sblo_hit S p t a x hx]; exact ho⟩) ys hy.1 hy.2
  have hobj2 : ∀ ys, InSpace p.tEnd p.bounds ys → ∃ out, (p.toProb S).objective ys =
      .ok ⟨totalCost (balancedCost S p) (upCost p.switchingCost) 1 1 (List.replicate p.d.toNat 0) ys, out⟩ := by
    intro ys hy
    exact objective_simplified (p.toProb S) p.switchingCost (fun _ _ _ => rfl)
      (by simp only [SBLO.toProb]; omega) 1 (balancedCost S p) (InBox p.bounds)
      (fun x hx => by have := List.Forall₂.length_eq hx; simp only [SBLO.toProb]; omega)
      (fun t a b x hx => hhit t a b x hx) ys hy.1 hy.2
  obtain ⟨r, N, r1, r2, r3, ⟨out, r4⟩, r5⟩ := C64_balanced_ratio S hS hS' p hv hT hlen f hf h0 hmono
    (by
      intro t h1 h2 c hc
      have := hfin t h1 h2
      unfold balancedCost at this
      rwa [hc] at this)
    γ hγ o hl (by rw [hα]; norm_num)
  obtain ⟨out', k1⟩ := hobj2 r.path.xs ⟨r2, r3⟩
  obtain ⟨out'', k2⟩ := hobj1 r.path.xs ⟨r2, r3⟩
  have hcost : totalCost (balancedCost S p) (upCost p.switchingCost) 1 1 (List.replicate p.d.toNat 0) r.path.xs =
      r.path.cost := by
    rw [hα, k2] at r4
    exact congrArg Cost.cost (Except.ok.inj r4)
  refine ⟨r.path.xs, ⟨_, out'⟩, N, fun fuel hfu => ?_, ⟨r2, r3⟩, rfl, fun ys hy q hq => ?_⟩
  · unfold solveApproxSBLO approxSBLO
    simp only [Except.bind, hv, Except.map, r1 fuel hfu, Option.map_some, Option.some.injEq]
    rw [C67_solve_ok_iff]
    exact ⟨p, r, rfl, hv, rfl, rfl, k1⟩
  · obtain ⟨c, c1, c2⟩ := r5 ys hy.1 hy.2
    obtain ⟨o3, k3⟩ := hobj1 ys hy
    rw [hα, k3] at c1
    cases c1
    simp only [hcost]
    exact c2 q hq

/-- **C98** (partial) The approximation scheme for load problems, with an exact solver: the schedule returned handles
every load, the cost reported is that of the load problem, and it is at most `2 * γ - 1` times that of any schedule which
can hand out every load in whole hundredths. Without that restriction this fails, see
`C98_approximation_rounding_counterexample`. -/
theorem C98_load_approximation_partial (S : Num.Solver) (hS : Exact S) (hS' : StaysFeasible S) (p : SLO ℤ)
    (hv : p.verify = .ok ()) (hc : (p.hittingCost.length : Int) = p.d) (hT : 1 ≤ p.tEnd)
    (hcap : ∀ l ∈ p.load.take p.tEnd.toNat, InHundredths l p.bounds)
    (γ : ℚ) (hγ : 1 < γ) (o : OfflineOptions) (hl : o.l = none) (hα : o.alpha = 1) :
    ∃ xs c N, (∀ fuel, N ≤ fuel → solveApproxSLO S fuel (.ok p) none γ o = some (.ok (xs, c))) ∧
      InSpace p.tEnd p.bounds xs ∧ c.cost = loadTotal p xs ∧ c.cost ≠ ⊤ ∧
      (∀ (i : Nat) x, xs[i]? = some x → InHundredths (p.load.getD i 0) x) ∧
      ∀ ys, InSpace p.tEnd p.bounds ys → (∀ (i : Nat) y, ys[i]? = some y → InHundredths (p.load.getD i 0) y) →
        ∀ q : ℚ, loadTotal p ys = (q : ECost) → c.cost ≤ (((2 * γ - 1) * q : ℚ) : ECost) := by
  have hval : ValidSLO p := by
    by_contra h
    have := (C10_slo_verify_exact p hc.ge).2 h
    rw [hv] at this; simp at this
  obtain ⟨v1, v2, v3, v4, v5, v6, v7, v8, v9, v10, v11⟩ := id hval
  have hub : InBox p.bounds p.bounds := by
    unfold InBox
    rw [List.forall₂_same]
    intro u hu
    exact ⟨(v6 u hu).le, le_refl _⟩
  have hvb : p.intoSBLO.verify = .ok () := (C10_sblo_verify_exact _).1 ⟨v1, v2, v3, v4, v5, v6, v7, v11⟩
  have hslot : ∀ t : Int, 1 ≤ t → t ≤ p.tEnd → ∀ x, InBox p.bounds x →
      (balancedCost S p.intoSBLO t x ≠ ⊤ ↔ InHundredths (p.load.getD (t - 1).toNat 0) x) ∧
      (InHundredths (p.load.getD (t - 1).toNat 0) x → balancedCost S p.intoSBLO t x = loadCost p t x) := by
    intro t h1 h2 x hx
    obtain ⟨a1, a2⟩ := access_getD hval t h1 h2
    obtain ⟨c, g1, g2, g3⟩ := C55_hundredths S hS hS' p (by omega) hc v3 t h1 x hx _ a1 a2
    have hb : balancedCost S p.intoSBLO t x = c.cost := by unfold balancedCost; rw [g1]
    rw [hb]
    refine ⟨g2, fun h => ?_⟩
    obtain ⟨out, g4⟩ := slo_hit hval hc t h1 h2 x hx
    rw [g3 h] at g4
    exact congrArg Cost.cost (Except.ok.inj g4)
  have htotal : ∀ zs, InSpace p.tEnd p.bounds zs → (∀ (i : Nat) z, zs[i]? = some z → InHundredths (p.load.getD i 0) z) →
      totalCost (balancedCost S p.intoSBLO) (upCost p.switchingCost) 1 1 (List.replicate p.d.toNat 0) zs = loadTotal p zs := by
    intro zs hz hh
    apply totalCost_congr
    intro i x hi
    have hil : i < zs.length := (List.getElem?_eq_some_iff.1 hi).1
    refine (hslot (1 + i) (by omega) (by have := hz.1; omega) x (hz.2 x (List.mem_of_getElem? hi))).2 ?_
    rw [show (1 + (i : Int) - 1).toNat = i by omega]
    exact hh i x hi
  have hne0 : ∀ (k : Nat), 0 ≤ p.hittingCost.getD k 0 := by
    intro k
    by_cases hk : k < p.hittingCost.length
    · rw [List.getD_eq_getElem _ _ hk]
      exact v8 k (by omega) _ (List.getElem?_eq_getElem hk)
    · simp [List.getD, List.getElem?_eq_none (not_lt.1 hk)]
  have hcall : ∀ t : Int, 1 ≤ t → ∀ (k : Nat) (g : CostFn ℚ Unit DCFailure), p.intoSBLO.hittingCost[k]? = some g →
      ∀ y : ℚ, ∃ o, g.callMean t y = .ok ⟨utilCost p.hittingCost k y, o⟩ := by
    intro t ht k g hg y
    have hcall := intoSBLO_cost p t ht k g y
    simp only [SLO.intoSBLO, List.getElem?_map, Option.map_eq_some_iff] at hg
    obtain ⟨q, hq, rfl⟩ := hg
    have hcall := fun c => hcall c (by simp [SLO.intoSBLO, hq])
    rw [CostFn.callMean_certain _ t ht] at hcall ⊢
    by_cases hy : y ≤ 1
    · rw [if_pos hy] at hcall ⊢
      exact ⟨_, by rw [← hcall _ rfl]⟩
    · rw [if_neg hy] at hcall ⊢
      exact ⟨_, by rw [← hcall _ rfl]⟩
  obtain ⟨xs, c0, N, s1, s2, s3, s4⟩ := C98_balanced_approximation S hS hS' p.intoSBLO hvb hT
    (by simp [SLO.intoSBLO, hc]) (fun _ k y => utilCost p.hittingCost k y) (fun t h1 _ k g hg y _ => hcall t h1 k g hg y)
    (by
      intro t k a _
      unfold utilCost
      split
      · exact WithTop.coe_le_coe.2 (hne0 k)
      · exact le_top)
    (by
      intro t k a b _ hab
      unfold utilCost
      by_cases hb : b ≤ 1
      · rw [if_pos hb, if_pos (hab.trans hb)]
      · rw [if_neg hb]; exact le_top)
    (by
      intro t h1 h2
      have h2 : t ≤ p.tEnd := h2
      exact (hslot t h1 h2 p.bounds hub).1.2 (hcap _ (Whole.getD_mem_take p.load _ _ (by omega) (by omega))))
    γ hγ o hl hα
  have hfull : totalCost (balancedCost S p.intoSBLO) (upCost p.switchingCost) 1 1 (List.replicate p.d.toNat 0)
      (List.replicate p.tEnd.toNat p.bounds) ≠ ⊤ := by
    have hsp : InSpace p.tEnd p.bounds (List.replicate p.tEnd.toNat p.bounds) := by
      refine ⟨by simp; omega, ?_⟩
      intro y hy
      rw [List.eq_of_mem_replicate hy]; exact hub
    have hall : ∀ l ∈ p.load.take p.tEnd.toNat, l ≤ p.bounds.sum := fun l hl => Whole.enough_of_hundredths (hcap l hl)
    rw [htotal _ hsp, static_cost p hval hc hT _ hub]
    · exact Cover.cover_ne_top.2 ((peak_le (List.sum_nonneg fun u hu => (v6 u hu).le)).2 hall)
    · intro i z hi
      have hil := (List.getElem?_eq_some_iff.1 hi).1
      rw [List.length_replicate] at hil
      rw [List.eq_of_mem_replicate (List.mem_of_getElem? hi)]
      exact hcap _ (Whole.getD_mem_take p.load _ _ hil (by omega))
  have hfin : totalCost (balancedCost S p.intoSBLO) (upCost p.switchingCost) 1 1 (List.replicate p.d.toNat 0) xs ≠ ⊤ := by
    obtain ⟨q, hq⟩ : ∃ q : ℚ, _ = (q : ECost) := ⟨_, (WithTop.coe_untop _ hfull).symm⟩
    have := s4 (List.replicate p.tEnd.toNat p.bounds) (by
      refine ⟨by simp [SLO.intoSBLO]; omega, ?_⟩
      intro y hy
      rw [List.eq_of_mem_replicate hy]; exact hub) q hq
    intro h
    have e : c0.cost = ⊤ := s3.trans h
    rw [e] at this
    simp at this
  have hxs : ∀ (i : Nat) x, xs[i]? = some x → InHundredths (p.load.getD i 0) x := by
    intro i x hi
    have hil : i < xs.length := (List.getElem?_eq_some_iff.1 hi).1
    have := (hslot (1 + i) (by omega) (by have : (xs.length : Int) = p.tEnd := s2.1; omega) x
      (s2.2 x (List.mem_of_getElem? hi))).1.1 (Lb.totalCost_hit_ne_top _ _ _ _ _ xs hfin i x hi)
    rwa [show (1 + (i : Int) - 1).toNat = i by omega] at this
  have hcost : c0.cost = loadTotal p xs := s3.trans (htotal xs s2 hxs)
  obtain ⟨out, k1⟩ := objective_simplified p.toProb p.switchingCost (SLO.simplified p)
    (by simp only [SLO.toProb]; omega) 1 (loadCost p) (InBox p.bounds)
    (fun x hx => by have := List.Forall₂.length_eq hx; simp only [SLO.toProb]; omega)
    (fun t a b x hx => slo_hit hval hc t a b x hx) xs s2.1 s2.2
  refine ⟨xs, ⟨loadTotal p xs, out⟩, N, fun fuel hfu => ?_, s2, rfl, ?_, hxs, ?_⟩
  · have := s1 fuel hfu
    unfold solveApproxSBLO at this
    simp only [Except.bind, hvb, Except.map, Option.map_eq_some_iff] at this
    obtain ⟨r, r1, r2⟩ := this
    obtain ⟨q, r', e1, _, e3, e4, _⟩ := (C67_solve_ok_iff _ _ _ _ _ _ _ _).1 r2
    unfold solveApproxSLO approxSLO
    simp only [Except.bind, hv, Except.map, r1, Option.map_some, Option.some.injEq]
    rw [C67_solve_ok_iff]
    exact ⟨p, r', rfl, hv, e3, e4, k1⟩
  · rw [← hcost, s3]; exact hfin
  · intro ys hy hh q hq
    have := s4 ys hy q (by rw [← hq]; exact htotal ys hy hh)
    rwa [hcost] at this

/-- **C98** If every load is zero or a divisor of 100, or if there is one type of servers only, the ratio holds for all
schedules. -/
theorem C98_divisors_approximation (S : Num.Solver) (hS : Exact S) (hS' : StaysFeasible S) (p : SLO ℤ)
    (hv : p.verify = .ok ()) (hc : (p.hittingCost.length : Int) = p.d) (hT : 1 ≤ p.tEnd)
    (hcap : ∀ l ∈ p.load.take p.tEnd.toNat, l ≤ p.bounds.sum)
    (hdiv : p.d = 1 ∨ ∀ l ∈ p.load.take p.tEnd.toNat, l = 0 ∨ l ∣ 100)
    (γ : ℚ) (hγ : 1 < γ) (o : OfflineOptions) (hl : o.l = none) (hα : o.alpha = 1) :
    ∃ xs c N, (∀ fuel, N ≤ fuel → solveApproxSLO S fuel (.ok p) none γ o = some (.ok (xs, c))) ∧
      InSpace p.tEnd p.bounds xs ∧ c.cost = loadTotal p xs ∧
      ∀ ys, InSpace p.tEnd p.bounds ys → ∀ q : ℚ, loadTotal p ys = (q : ECost) →
        c.cost ≤ (((2 * γ - 1) * q : ℚ) : ECost) := by
  have hval : ValidSLO p := by
    by_contra h
    have := (C10_slo_verify_exact p hc.ge).2 h
    rw [hv] at this; simp at this
  have key := Whole.hundredths_of_divisible hval hdiv
  obtain ⟨xs, c, N, s1, s2, s3, _, _, s6⟩ := C98_load_approximation_partial S hS hS' p hv hc hT
    (fun l hl => key l hl p.bounds hval.2.2.1 (fun u hu => (hval.2.2.2.2.2.1 u hu).le) (hcap l hl)) γ hγ o hl hα
  exact ⟨xs, c, N, s1, s2, s3, fun ys hy q hq => s6 ys hy
    (Whole.hundredths_of_finite hval hdiv hy (by rw [hq]; simp)) q hq⟩

theorem approximation_rounding (S : Num.Solver) (hS : Exact S) (hS' : StaysFeasible S) (γ : ℚ) (hγ : 1 < γ) :
    ∃ xs c N, (∀ fuel, N ≤ fuel → solveApproxSLO S fuel (.ok thirds) none γ .dflt = some (.ok (xs, c))) ∧
      ((12 : ℚ) : ECost) ≤ c.cost := by
  obtain ⟨xs, c, N, s1, ⟨s2, s2'⟩, s3, s4, s5, _⟩ := C98_load_approximation_partial S hS hS' thirds (by decide +kernel)
    (by decide) (by decide)
    (by
      intro l hl
      have : l = 3 := by simpa [thirds] using hl
      subst this
      exact ⟨[0, 100], .cons (by decide) (.cons (by decide) .nil), rfl⟩) γ hγ .dflt rfl rfl
  refine ⟨xs, c, N, s1, ?_⟩
  obtain ⟨x, rfl⟩ : ∃ x, xs = [x] := by
    have : xs.length = 1 := by
      have : (xs.length : Int) = 1 := s2
      omega
    exact List.length_eq_one_iff.1 this
  have hb : InBox [1, 3] x := s2' x (by simp)
  match x, hb with
  | [a, b], .cons ha (.cons hb .nil) =>
    have h := s5 0 [a, b] rfl
    obtain ⟨ns, n1, n2⟩ := h
    match ns, n1 with
    | [m, n], .cons hm (.cons hn .nil) =>
      simp only [List.sum_cons, List.sum_nil] at n2
      have e : (thirds.load.getD 0 0) = 3 := rfl
      rw [e] at hm hn
      have : (a = 0 ∧ b = 3) ∨ (a = 1 ∧ b = 3) := by omega
      rw [s3]
      rcases this with ⟨rfl, rfl⟩ | ⟨rfl, rfl⟩ <;> decide +kernel

/-- The ratio does not hold in general, whatever the solver: with `γ = 101/100` the result costs at least 12, although
one server of the first and two of the second type cost 11. -/
theorem C98_approximation_rounding_counterexample :
    InSpace thirds.tEnd thirds.bounds [[1, 2]] ∧ loadTotal thirds [[1, 2]] = ((11 : ℚ) : ECost) ∧
    (∃ S : Num.Solver, Exact S ∧ StaysFeasible S) ∧
    ∀ S, Exact S → StaysFeasible S → ∃ xs c N,
      (∀ fuel, N ≤ fuel → solveApproxSLO S fuel (.ok thirds) none (101 / 100) .dflt = some (.ok (xs, c))) ∧
      ¬ c.cost ≤ (((2 * (101 / 100) - 1) * 11 : ℚ) : ECost) := by
  refine ⟨⟨rfl, ?_⟩, by decide +kernel, exists_exact_feasible, ?_⟩
  · intro x hx
    rw [List.mem_singleton] at hx
    subst hx
    exact .cons (by decide) (.cons (by decide) .nil)
  · intro S hS hS'
    obtain ⟨xs, c, N, s1, s2⟩ := approximation_rounding S hS hS' (101 / 100) (by norm_num)
    refine ⟨xs, c, N, s1, fun h => ?_⟩
    have := WithTop.coe_le_coe.1 (s2.trans h)
    norm_num at this

/-- Non-vacuity: two types, three slots. -/
example : ∃ S : Num.Solver, ∃ xs c N, ∀ fuel, N ≤ fuel →
    solveApproxSLO S fuel (.ok ⟨2, 3, [17, 40], [1, 2], [2, 1], [50, 0, 25]⟩) none 2 .dflt = some (.ok (xs, c)) := by
  obtain ⟨S, h1, h2⟩ := exists_exact_feasible
  obtain ⟨xs, c, N, g1, _⟩ := C98_divisors_approximation S h1 h2 ⟨2, 3, [17, 40], [1, 2], [2, 1], [50, 0, 25]⟩
    (by decide +kernel) rfl (by decide) (by decide +kernel) (.inr (by decide)) 2 (by norm_num) .dflt rfl rfl
  exact ⟨S, xs, c, N, g1⟩

end Soco.Offline
