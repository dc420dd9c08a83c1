import Verif.Model.OfflineFrac
import Verif.Spec.OfflineFrac
import Verif.Props.Rbg2
import Verif.Props.Horizon
import Verif.Lemmas.LcpFrac

/-! # C60, C61: offline optima of fractional problems -/

namespace Soco
namespace OfflineFrac
open Spec Num Descent

section
variable {C D : Type} [OutSuccess C] [OutFailure D]

theorem default_eq {p : SCO ℚ C D} (hd : p.d = p.bounds.length) : p.toProb.defaultConfig = List.replicate p.bounds.length 0 := by
  simp [Prob.defaultConfig, Config.repeat, SCO.toProb, hd]

theorem movement_eq {p : SCO ℚ C D} {t : Int} {hit : Config ℚ → ECost} {mv : Config ℚ → ℚ} (h : Slot p t hit mv) (y x : Config ℚ)
    (hy : y.length = p.bounds.length) (hx : x.length = p.bounds.length) :
    p.toProb.movement y x false = .ok (mv (List.zipWith (· - ·) x y)) := by
  have := h.moves (List.zipWith (· - ·) x y) (by simp [hx, hy])
  simpa [SCO.toProb, assertP, bind, Except.bind, Config.sub] using this

/-- The objective of a schedule of the right shape. -/
theorem objective_eq (p : SCO ℚ C D) (hit : Int → Config ℚ → ECost) (mv : Config ℚ → ℚ) (T : Nat) (hT : p.tEnd = T) (h1 : 1 ≤ T)
    (hp : ∀ t : Nat, 1 ≤ t → t ≤ T → Slot p t (hit t) mv) (α : ℚ) (xs : Schedule ℚ) (hl : xs.length = T)
    (hx : ∀ x ∈ xs, x.length = p.bounds.length) :
    ∃ c o, p.toProb.alphaUnfairObjective xs α = .ok ⟨c, o⟩ ∧
      ((∀ x ∈ xs, InBoxQ p.bounds x) → c = scheduleCost p.bounds.length hit mv α xs) := by
  have hs := hp 1 le_rfl h1
  obtain ⟨o, ho⟩ := C02_objective_eq_totalCost p.toProb xs p.toProb.defaultConfig α false xs.length
    (fun t => hitOr p.bounds (hit t)) (fun y x => mv (List.zipWith (· - ·) x y)) (by
      intro t a1 a2 _ x hx'
      rw [padTo_self] at hx'
      obtain ⟨n, rfl⟩ := Int.eq_ofNat_of_zero_le (by omega : 0 ≤ t)
      exact hitCost_hitOr (hp n (by omega) (by omega)) x (hx x hx')) (by
      intro y hy x hx'
      rw [padTo_self] at hy hx'
      refine movement_eq hs y x ?_ (hx x hx')
      rcases List.mem_cons.1 hy with rfl | hy
      · rw [default_eq hs.dim]; simp
      · exact hx y hy)
  have e : p.toProb.tEnd = p.tEnd := rfl
  rw [padTo_self, default_eq hs.dim, e] at ho
  refine ⟨totalCost (fun t x => if t > p.tEnd then 0 else hitOr p.bounds (hit t) x)
    (fun y x => mv (List.zipWith (· - ·) x y)) α 1 (List.replicate p.bounds.length 0) xs, o, ?_, ?_⟩
  · have e2 : p.tEnd = ((xs.length : Nat) : Int) := by rw [hT, hl]
    rw [← e2] at ho
    rw [Prob.alphaUnfairObjective, default_eq hs.dim, e]
    exact ho
  · intro hb
    refine Uni.totalCost_congr _ _ _ fun s a1 a2 x hx' => ?_
    rw [if_neg (by omega), hitOr, if_pos (hb x hx')]

theorem totalMovement_ok (p : SCO ℚ C D) (hit : Int → Config ℚ → ECost) (mv : Config ℚ → ℚ) (T : Nat) (hT : p.tEnd = T) (h1 : 1 ≤ T)
    (hp : ∀ t : Nat, 1 ≤ t → t ≤ T → Slot p t (hit t) mv) (xs : Schedule ℚ) (hl : xs.length = T)
    (hx : ∀ x ∈ xs, x.length = p.bounds.length) :
    p.toProb.totalMovement xs false = .ok ((scheduleMove p.bounds.length mv xs : ℚ) : ECost) := by
  have hs := hp 1 le_rfl h1
  have e : p.toProb.tEnd = p.tEnd := rfl
  unfold Prob.totalMovement
  rw [e, hT, ← hl, sumOverSchedule_eq, default_eq hs.dim]
  have key : ∀ (dflt : Config ℚ) (xs : Schedule ℚ) (prev : Config ℚ) (t : Int), (∀ x ∈ prev :: xs, x.length = p.bounds.length) →
      ∃ cs : List (Cost Unit Unit), slotTerms (fun (_ : Int) prevX x => do
        let m ← p.toProb.movement prevX x false
        .ok (Cost.raw ((m : ℚ) : ECost))) dflt xs.length t prev xs = .ok cs ∧
        (cs.map (·.cost)).sum = ((totalMove (fun y x => mv (List.zipWith (· - ·) x y)) prev xs : ℚ) : ECost) := by
    intro dflt xs
    induction xs with
    | nil => intro prev t _; exact ⟨[], rfl, by simp [totalMove]⟩
    | cons x xs ih =>
      intro prev t h
      obtain ⟨cs, h1, h2⟩ := ih x (t + 1) (fun y hy => h y (List.mem_cons_of_mem _ hy))
      refine ⟨Cost.raw ((mv (List.zipWith (· - ·) x prev) : ℚ) : ECost) :: cs, ?_, ?_⟩
      · rw [List.length_cons, slotTerms]
        simp only [List.headD_cons, List.tail_cons]
        rw [movement_eq hs prev x (h prev (by simp)) (h x (by simp)), h1]
        rfl
      · simp [totalMove, h2, Cost.raw]
  obtain ⟨cs, k1, k2⟩ := key (List.replicate p.bounds.length 0) xs (List.replicate p.bounds.length 0) 1 (by
    intro x hx'
    rcases List.mem_cons.1 hx' with rfl | hx'
    · simp
    · exact hx x hx')
  rw [k1]
  simp only [bind, Except.bind, Except.map]
  rw [Cost.sum_cost, k2]
  rfl

theorem coBox_eq (p : SCO ℚ C D) : coBox p = (List.replicate p.tEnd.toNat p.bounds).flatten := by
  unfold coBox Schedule.buildRaw
  generalize p.tEnd.toNat = n
  rw [List.flatMap_def, List.flatMap_def, List.map_const', List.map_const', List.length_range]
  induction n with
  | zero => rfl
  | succ n ih =>
    rw [List.replicate_succ, List.replicate_succ, List.replicate_succ, List.flatten_cons, List.flatten_cons, List.flatten_cons,
      List.zip_append (by simp), ih]
    congr 1
    generalize p.bounds = b
    induction b with
    | nil => rfl
    | cons b bs ih => simp [ih]

/-- **C60.** Convex optimisation returns a schedule of the decision space for all slots. With an exact optimiser it meets the
constraint on the total movement, if any, unless no schedule does, and no schedule that meets the constraint has a smaller
(`α`-unfair) cost. -/
theorem C60_convex_optimization (S : Solver) (hS : Sound S) (p : SCO ℚ C D) (hit : Int → Config ℚ → ECost) (mv : Config ℚ → ℚ)
    (T : Nat) (hT : p.tEnd = T) (h1 : 1 ≤ T) (hp : ∀ t : Nat, 1 ≤ t → t ≤ T → Slot p t (hit t) mv) (o : OfflineOptions)
    (ho : o.inverted = false) :
    ∃ xs, co S p o = .ok xs ∧ GridSchedule p.bounds T xs ∧ (Exact S →
      (∀ l, o.l = some l → (∃ ys, GridSchedule p.bounds T ys ∧ scheduleMove p.bounds.length mv ys ≤ l) →
        scheduleMove p.bounds.length mv xs ≤ l) ∧
      ∀ ys, GridSchedule p.bounds T ys → (∀ l, o.l = some l → scheduleMove p.bounds.length mv ys ≤ l) →
        scheduleCost p.bounds.length hit mv o.alpha xs ≤ scheduleCost p.bounds.length hit mv o.alpha ys) := by
  have hs := hp 1 le_rfl h1
  set d := p.bounds.length with hd
  have hdn : p.d.toNat = d := by rw [hs.dim]; simp [hd]
  have hTn : p.tEnd.toNat = T := by omega
  have hgb : GridBox (List.replicate T p.bounds).flatten := by
    intro c hc
    simp only [List.mem_flatten, List.mem_replicate] at hc
    obtain ⟨_, ⟨_, rfl⟩, hc⟩ := hc
    exact hs.box c hc
  have hlen : (List.replicate T p.bounds).flatten.length = d * T := by simp [hd, Nat.mul_comm]
  obtain ⟨cs, hcs⟩ : ∃ cs : List (List ℚ → Res Slack), cs = coConstraints p o.l := ⟨_, rfl⟩
  have hobj : ∀ raw : List ℚ, raw.length = d * T → ∃ c, coObjective p o.alpha raw = .ok c := by
    intro raw hraw
    obtain ⟨xs, a1, a2, a3, a4⟩ := (C12_from_raw_accepts d T raw).1 hraw
    obtain ⟨c, _, hc, _⟩ := objective_eq p hit mv T hT h1 hp o.alpha xs a2 a3
    exact ⟨c, by simp only [coObjective, hdn, hTn, a1, hc, bind, Except.bind]⟩
  have hval : ∀ xs, GridSchedule p.bounds T xs → coObjective p o.alpha xs.flatten = .ok (scheduleCost d hit mv o.alpha xs) := by
    rintro xs ⟨a2, a3⟩
    have a4 : ∀ x ∈ xs, x.length = d := fun x hx => inBoxQ_length (a3 x hx).1
    have a1 := C12_from_raw_flatten d xs a4
    rw [a2] at a1
    obtain ⟨c, _, hc, hc'⟩ := objective_eq p hit mv T hT h1 hp o.alpha xs a2 a4
    rw [coObjective, hdn, hTn, a1, ← hc' fun x hx => (a3 x hx).1]
    simp only [hc, bind, Except.bind]
  have hcon : ∀ l (raw : List ℚ), raw.length = d * T → ∃ v, coConstraint p l raw = .ok v := by
    intro l raw hraw
    obtain ⟨xs, a1, a2, a3, a4⟩ := (C12_from_raw_accepts d T raw).1 hraw
    have hc := totalMovement_ok p hit mv T hT h1 hp xs a2 a3
    exact ⟨_, by simp only [coConstraint, hdn, hTn, a1, hc, bind, Except.bind]; rfl⟩
  have hmeets : ∀ xs, GridSchedule p.bounds T xs →
      (Meets cs xs.flatten ↔ ∀ l, o.l = some l → scheduleMove d mv xs ≤ l) := by
    rintro xs ⟨a2, a3⟩
    have a4 : ∀ x ∈ xs, x.length = d := fun x hx => inBoxQ_length (a3 x hx).1
    have a1 := C12_from_raw_flatten d xs a4
    rw [a2] at a1
    have hc := totalMovement_ok p hit mv T hT h1 hp xs a2 a4
    cases hl : o.l with
    | none => simp [hcs, coConstraints, hl, Meets]
    | some l =>
      have hv : coConstraint p l xs.flatten = .ok (((scheduleMove d mv xs - l : ℚ) : WithTop ℚ) : Slack) := by
        simp only [coConstraint, hdn, hTn, a1, hc, bind, Except.bind]
        rfl
      have h0 : ((((scheduleMove d mv xs - l : ℚ) : WithTop ℚ) : Slack) ≤ 0) ↔ scheduleMove d mv xs ≤ l := by
        rw [← WithBot.coe_zero, WithBot.coe_le_coe, ← WithTop.coe_zero, WithTop.coe_le_coe, sub_nonpos]
      simp only [hcs, coConstraints, hl, Meets, List.mem_singleton, forall_eq, hv, Except.ok.injEq, Option.some.injEq]
      constructor
      · rintro ⟨v, rfl, hv⟩ _ rfl
        exact h0.1 hv
      · intro h
        exact ⟨_, rfl, h0.2 (h l rfl)⟩
  obtain ⟨x, v, b1, b2, b3, b4, -, -⟩ := minimize_sound hS hgb none (by simp) cs (f := coObjective p o.alpha)
    (by intro y hy; exact hobj y (by rw [hy, hlen])) (by
      intro c hc y hy
      cases hl : o.l with
      | none => simp [hcs, coConstraints, hl] at hc
      | some l =>
        simp only [hcs, coConstraints, hl, List.mem_singleton] at hc
        subst hc
        exact hcon l y (by rw [hy, hlen]))
  obtain ⟨xs, p1, p2, p3⟩ := (Horizon.inBox_blocks p.bounds T x).1 b2
  have hgs : GridSchedule p.bounds T xs := ⟨p1, fun y hy => ⟨p3 y hy, fun j hj => b3 j (by
    rw [← p2]; exact List.mem_flatten.2 ⟨y, hy, hj⟩)⟩⟩
  have hfl : ∀ ys, GridSchedule p.bounds T ys → InBoxQ (List.replicate T p.bounds).flatten ys.flatten ∧ ∀ j ∈ ys.flatten, OnGrid j := by
    rintro ys ⟨a1, a2⟩
    refine ⟨(Horizon.inBox_blocks p.bounds T _).2 ⟨ys, a1, rfl, fun y hy => (a2 y hy).1⟩, fun j hj => ?_⟩
    obtain ⟨y, hy, hj⟩ := List.mem_flatten.1 hj
    exact (a2 y hy).2 j hj
  have hraw := C12_from_raw_flatten d xs fun x hx => inBoxQ_length (hgs.2 x hx).1
  rw [p1, p2] at hraw
  refine ⟨xs, ?_, hgs, fun hE => ⟨?_, ?_⟩⟩
  · simp only [co, ho, assertR, Bool.not_false, if_true, bind, Except.bind, coBox_eq, hTn]
    rw [← hcs, b1]
    simp only [hdn, hraw]
  · intro l hl hex
    obtain ⟨ys, c1, c2⟩ := hex
    have hm := hE.feasible (List.replicate T p.bounds).flatten (coObjective p o.alpha)
      ((none : Option (List ℚ)).getD ((List.replicate T p.bounds).flatten.map Prod.snd)) cs hgb
      ⟨ys.flatten, (hfl ys c1).1, (hfl ys c1).2, (hmeets ys c1).2 (by
        intro l' hl'
        rw [hl] at hl'
        cases hl'
        exact c2)⟩
    rw [← b4, ← p2] at hm
    exact (hmeets xs hgs).1 hm l hl
  · intro ys c1 c2
    exact hE.best (List.replicate T p.bounds).flatten (coObjective p o.alpha)
      ((none : Option (List ℚ)).getD ((List.replicate T p.bounds).flatten.map Prod.snd)) cs hgb ys.flatten _ _
      (hfl ys c1).1 (hfl ys c1).2 ((hmeets ys c1).2 c2) (by rw [← b4, ← p2]; exact hval xs hgs) (hval ys c1)

/-- **C61.** The static fractional algorithm returns a constant schedule of the decision space. With an exact optimiser no
constant schedule has a smaller (`α`-unfair) cost. -/
theorem C61_static_fractional (S : Solver) (hS : Sound S) (p : SCO ℚ C D) (hit : Int → Config ℚ → ECost) (mv : Config ℚ → ℚ)
    (T : Nat) (hT : p.tEnd = T) (h1 : 1 ≤ T) (hp : ∀ t : Nat, 1 ≤ t → t ≤ T → Slot p t (hit t) mv) (o : OfflineOptions)
    (ho : o.inverted = false) (hl : o.l = none ∨ o.l = some 0) :
    ∃ x, staticFractional S p o = .ok (List.replicate T x) ∧ GridPoint p.bounds x ∧ (Exact S → ∀ y, GridPoint p.bounds y →
      scheduleCost p.bounds.length hit mv o.alpha (List.replicate T x) ≤
        scheduleCost p.bounds.length hit mv o.alpha (List.replicate T y)) := by
  have hs := hp 1 le_rfl h1
  have hTn : p.tEnd.toNat = T := by omega
  have hval : ∀ x : List ℚ, GridPoint p.bounds x → staticObjective p o.alpha x =
      .ok (scheduleCost p.bounds.length hit mv o.alpha (List.replicate T x)) := by
    intro x hx
    obtain ⟨c, _, hc, hc'⟩ := objective_eq p hit mv T hT h1 hp o.alpha (List.replicate T x) (by simp) (by
      intro y hy
      rw [(List.mem_replicate.1 hy).2]
      exact inBoxQ_length hx.1)
    rw [← hc' (by
      intro y hy
      rw [(List.mem_replicate.1 hy).2]
      exact hx.1)]
    simp only [staticObjective, hTn, hc, bind, Except.bind]
  obtain ⟨x, v, b1, b2, b3, b4, -, -⟩ := minimize_sound hS hs.box none (by simp) [] (f := staticObjective p o.alpha)
    (by
      intro x hx
      obtain ⟨c, _, hc, -⟩ := objective_eq p hit mv T hT h1 hp o.alpha (List.replicate T x) (by simp) (by
        intro y hy
        rw [(List.mem_replicate.1 hy).2, hx])
      exact ⟨c, by simp only [staticObjective, hTn, hc, bind, Except.bind]⟩) (by simp)
  refine ⟨x, ?_, ⟨b2, b3⟩, fun hE y hy => ?_⟩
  · have hl' : (o.l.isNone || o.l == some 0) = true := by rcases hl with h | h <;> simp [h]
    simp only [staticFractional, ho, assertR, Bool.not_false, if_true, hl', bind, Except.bind, b1, hTn]
  · exact hE.best p.bounds (staticObjective p o.alpha) _ [] hs.box y _ _ hy.1 hy.2 (by simp [Meets])
      (by rw [← b4]; exact hval x ⟨b2, b3⟩) (hval y hy)

end

open Rbg

/-- The hypotheses of `C60_convex_optimization` and `C61_static_fractional` hold for the example instance with any number of
slots. -/
example (T : Nat) (h1 : 1 ≤ T) : ∃ S : Solver, Sound S ∧ Exact S ∧ (exQ T).tEnd = T ∧
    ∀ t : Nat, 1 ≤ t → t ≤ T → Slot (exQ T) t (exHit t) exMv := by
  obtain ⟨S, hE, _⟩ := exists_exact
  exact ⟨S, hE.toSound, hE, rfl, fun t ht _ => exQ_slot _ _ (by exact_mod_cast ht)⟩

/-- Non-vacuity of the constraint of `C60_convex_optimization`: with total movement at most `1/2` the optimum of the example
stops half way, in both slots. -/
example : ∃ S : Solver, Exact S ∧ co S (exQ 2) ⟨false, 1, some (1 / 2)⟩ = .ok [[1 / 2], [1 / 2]] := by
  obtain ⟨S, hE, _⟩ := exists_exact
  refine ⟨S, hE, ?_⟩
  obtain ⟨xs, h1, ⟨h2, h3⟩, h4⟩ := C60_convex_optimization S hE.toSound (exQ 2) exHit exMv 2 rfl (by norm_num)
    (fun t ht _ => exQ_slot _ _ (by exact_mod_cast ht)) ⟨false, 1, some (1 / 2)⟩ rfl
  obtain ⟨h5, h6⟩ := h4 hE
  have ghalf : GridPoint [(0, 1)] [(1 / 2 : ℚ)] := ⟨.cons ⟨by norm_num, by norm_num⟩ .nil, by simpa using ⟨50, by norm_num⟩⟩
  have hh : GridSchedule (exQ 2).bounds 2 [[1 / 2], [1 / 2]] := ⟨rfl, by simpa [exQ] using ghalf⟩
  have hc : scheduleMove 1 exMv [[1 / 2], [1 / 2]] = 1 / 2 := by
    norm_num [scheduleMove, totalMove, exMv, List.replicate]
  have e1 := h5 _ rfl ⟨_, hh, hc.le⟩
  have e2 := h6 _ hh (by
    intro l hl
    cases hl
    exact hc.le)
  obtain ⟨y, z, rfl⟩ := List.length_eq_two.1 h2
  obtain ⟨a, rfl, a0, a1⟩ := grid01 (h3 y (by simp))
  obtain ⟨b, rfl, b0, b1⟩ := grid01 (h3 z (by simp))
  have cost : ∀ a b : ℚ, scheduleCost 1 exHit exMv 1 [[a], [b]] =
      ((3 / 2 * (1 - a) + |a| + (1 / 4 * (1 - b) + |b - a|) : ℚ) : ECost) := by
    intro a b
    have : ¬ ((1 : Int) + 1 ≤ 1) := by norm_num
    simp only [scheduleCost, totalCost, exHit, exF, exMv, List.replicate, List.zipWith, List.headD_cons, le_refl, if_true, one_mul,
      sub_zero, this, if_false, ← WithTop.coe_add, add_zero]
  have e3 : |a| + |b - a| ≤ 1 / 2 := by
    simpa [scheduleMove, totalMove, exMv, List.replicate, exQ] using e1
  have e4 : scheduleCost 1 exHit exMv 1 [[a], [b]] ≤ scheduleCost 1 exHit exMv 1 [[1 / 2], [1 / 2]] := e2
  rw [cost, cost, WithTop.coe_le_coe] at e4
  rw [abs_of_nonneg a0] at e3 e4
  norm_num at e4
  have ha : a = 1 / 2 := by
    cases abs_cases (b - a) <;> linarith
  subst ha
  have hb : b = 1 / 2 := by
    cases abs_cases (b - 1 / 2) <;> linarith
  subst hb
  exact h1

/-- If no schedule meets the constraint, a schedule which violates it is returned all the same. -/
theorem C60_infeasible {C D : Type} [OutSuccess C] [OutFailure D] (S : Solver) (hS : Sound S) (p : SCO ℚ C D)
    (hit : Int → Config ℚ → ECost) (mv : Config ℚ → ℚ) (T : Nat) (hT : p.tEnd = T) (h1 : 1 ≤ T)
    (hp : ∀ t : Nat, 1 ≤ t → t ≤ T → Slot p t (hit t) mv) (α l : ℚ)
    (hno : ∀ ys, GridSchedule p.bounds T ys → l < scheduleMove p.bounds.length mv ys) :
    ∃ xs, co S p ⟨false, α, some l⟩ = .ok xs ∧ l < scheduleMove p.bounds.length mv xs := by
  obtain ⟨xs, h2, h3, -⟩ := C60_convex_optimization S hS p hit mv T hT h1 hp ⟨false, α, some l⟩ rfl
  exact ⟨xs, h2, hno xs h3⟩

/-- Non-vacuity: a negative bound. -/
example : ∀ ys, GridSchedule (exQ 2).bounds 2 ys → -1 < scheduleMove (exQ 2).bounds.length exMv ys := by
  rintro ys ⟨h2, h3⟩
  obtain ⟨y, z, rfl⟩ := List.length_eq_two.1 h2
  obtain ⟨a, rfl, a0, a1⟩ := grid01 (h3 y (by simp))
  obtain ⟨b, rfl, b0, b1⟩ := grid01 (h3 z (by simp))
  have : scheduleMove (exQ 2).bounds.length exMv [[a], [b]] = |a| + |b - a| := by
    simp [scheduleMove, totalMove, exMv, List.replicate, exQ]
  rw [this]
  have := abs_nonneg a
  have := abs_nonneg (b - a)
  linarith

/-- **C61** (limit). The bound `0` on the total movement is accepted, but the schedule returned moves: the static optimum of
the example is at 1, at movement cost 1, although staying at zero would meet the bound. -/
theorem C61_zero_movement_counterexample (S : Solver) (hE : Exact S) :
    staticFractional S (exQ 2) ⟨false, 1, some 0⟩ = .ok [[1], [1]] ∧ scheduleMove 1 exMv [[1], [1]] = 1 ∧
      GridSchedule (exQ 2).bounds 2 [[0], [0]] ∧ scheduleMove 1 exMv [[0], [0]] = 0 := by
  obtain ⟨x, h1, h2, h3⟩ := C61_static_fractional S hE.toSound (exQ 2) exHit exMv 2 rfl (by norm_num)
    (fun t ht _ => exQ_slot _ _ (by exact_mod_cast ht)) ⟨false, 1, some 0⟩ rfl (Or.inr rfl)
  refine ⟨?_, by norm_num [scheduleMove, totalMove, exMv, List.replicate], ⟨rfl, by simpa [exQ] using grid_zero⟩,
    by norm_num [scheduleMove, totalMove, exMv, List.replicate]⟩
  obtain ⟨a, rfl, a0, a1⟩ := grid01 h2
  have e := h3 hE [1] grid_one
  have cost : ∀ a : ℚ, scheduleCost 1 exHit exMv 1 (List.replicate 2 [a]) =
      ((3 / 2 * (1 - a) + |a| + (1 / 4 * (1 - a) + |a - a|) : ℚ) : ECost) := by
    intro a
    have : ¬ ((1 : Int) + 1 ≤ 1) := by norm_num
    simp only [scheduleCost, totalCost, exHit, exF, exMv, List.replicate, List.zipWith, List.headD_cons, le_refl, if_true, one_mul,
      sub_zero, this, if_false, ← WithTop.coe_add, add_zero]
  have e' : scheduleCost 1 exHit exMv 1 (List.replicate 2 [a]) ≤ scheduleCost 1 exHit exMv 1 (List.replicate 2 [1]) := e
  rw [cost, cost, WithTop.coe_le_coe, abs_of_nonneg a0] at e'
  norm_num at e'
  have ha : a = 1 := by linarith
  subst ha
  exact h1

end OfflineFrac
end Soco
