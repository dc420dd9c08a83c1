import Verif.Lemmas.Objective
import Verif.Lemmas.CostFn
import Verif.Model.Convert
import Verif.Props.Objective
import Verif.Props.Examples

/-!
# C04: conversion to smoothed convex optimisation preserves the objective
-/

namespace Soco
variable {T C D : Type} [Value T] [OutSuccess C] [OutFailure D]

/-- `∑ k, β k / 2 * |x k|` -/
def halfAbs (β : List ℚ) (x : List T) : ℚ :=
  (List.zipWith (fun b j => b / 2 * |toQ j|) β x).sum

theorem manhattanScaled_ok (β : List ℚ) (x : Config T) (h : x.length ≤ β.length) :
    manhattanScaled β x = .ok (halfAbs β x) := by
  induction x generalizing β with
  | nil => cases β <;> simp [manhattanScaled, halfAbs]
  | cons j x ih =>
    cases β with
    | nil => simp at h
    | cons b β =>
      simp [manhattanScaled, ih β (by simpa using h), bind, Except.bind, halfAbs]

theorem halfAbs_sub (β : List ℚ) (x y : List T) (h : x.length = y.length) :
    halfAbs β (Config.sub x y) = (Spec.upCost β y x + Spec.downCost β y x) / 2 := by
  induction x generalizing β y with
  | nil =>
    cases y with
    | nil => cases β <;> simp [halfAbs, Config.sub, Spec.upCost, Spec.downCost, List.zipWith3]
    | cons _ _ => simp at h
  | cons j x ih =>
    cases y with
    | nil => simp at h
    | cons i y =>
      cases β with
      | nil => simp [halfAbs, Spec.upCost, Spec.downCost, List.zipWith3]
      | cons b β =>
        have ih' := ih β y (by simpa using h)
        simp only [halfAbs, Config.sub, List.zipWith_cons_cons, List.sum_cons, Spec.upCost,
          Spec.downCost, List.zipWith3] at ih' ⊢
        rw [ih', toQ_sub]
        rcases le_total (toQ j) (toQ i) with hji | hji
        · rw [abs_of_nonpos (by linarith), max_eq_left (by linarith), max_eq_right (by linarith)]
          ring
        · rw [abs_of_nonneg (by linarith), max_eq_right (by linarith), max_eq_left (by linarith)]
          ring

theorem halfAbs_nonneg (β : List ℚ) (x : List T) (hx : ∀ j ∈ x, 0 ≤ j) :
    halfAbs β x = Spec.weighted β x / 2 := by
  induction x generalizing β with
  | nil => cases β <;> simp [halfAbs, Spec.weighted]
  | cons j x ih =>
    cases β with
    | nil => simp [halfAbs, Spec.weighted]
    | cons b β =>
      have ih' := ih β (fun j hj => hx j (by simp [hj]))
      simp only [halfAbs, Spec.weighted, List.zipWith_cons_cons, List.sum_cons] at ih' ⊢
      rw [ih', abs_of_nonneg (toQ_nonneg.2 (hx j (by simp)))]
      ring

theorem withinPairs_zero (bounds : List T) (x : Config T) :
    withinPairs (bounds.map fun u => ((0 : T), u)) x = withinVec bounds x := by
  unfold withinPairs withinVec
  simp [List.zipWith_map_left]

theorem withinVec_true_nonneg {bounds : List T} {x : Config T} (h : withinVec bounds x = .ok true) :
    ∀ j ∈ x, 0 ≤ j := by
  unfold withinVec at h
  split_ifs at h with hl
  simp only [Except.ok.injEq] at h
  clear * - h hl
  induction x generalizing bounds with
  | nil => simp
  | cons a x ih =>
    cases bounds with
    | nil => simp at hl
    | cons u us =>
      simp only [List.zipWith_cons_cons, List.all_cons, id, Bool.and_eq_true, decide_eq_true_eq,
        ge_iff_le] at h
      intro j hj
      rcases List.mem_cons.1 hj with rfl | hj
      · exact h.1.1
      · exact ih (by simpa using hl) h.2 j hj

theorem totalMove_half (β : List ℚ) (n : Nat) (xs : List (List T)) (prev : List T)
    (hp : prev.length = n) (hx : ∀ x ∈ xs, x.length = n) :
    Spec.totalMove (fun y x => halfAbs β (Config.sub x y)) prev xs
      = (Spec.totalMove (Spec.upCost β) prev xs + Spec.totalMove (Spec.downCost β) prev xs) / 2 := by
  induction xs generalizing prev with
  | nil => simp [Spec.totalMove]
  | cons x xs ih =>
    have hxl := hx x (by simp)
    simp only [Spec.totalMove, ih x hxl (fun y hy => hx y (by simp [hy])),
      halfAbs_sub β x prev (by rw [hxl, hp])]
    ring

theorem intoSCO_hitCost (p : SSCO T C D) (t : Int) (ht : 1 ≤ t) (hT : t < p.tEnd) (x : Config T) :
    p.intoSCO.toProb.hitCost t x = p.toProb.hitCost t x := by
  have hne : t ≠ p.tEnd := by omega
  simp only [SCO.toProb, SSCO.intoSCO, CostFn.callMeanWithinBounds, withinPairs_zero,
    CostFn.callMean_certain _ t ht, if_neg hne]
  simp only [SSCO.toProb, CostFn.callMeanWithinBounds]
  cases withinVec p.bounds x with
  | error e => rfl
  | ok b => cases b <;> rfl

theorem intoSCO_hitCost_last (p : SSCO T C D) (ht : 1 ≤ p.tEnd) (x : Config T)
    (hx : x.length ≤ p.switchingCost.length) :
    p.intoSCO.toProb.hitCost p.tEnd x
      = (p.toProb.hitCost p.tEnd x).map fun c =>
        ⟨c.cost + ((halfAbs p.switchingCost x : ℚ) : ECost), c.output⟩ := by
  simp only [SCO.toProb, SSCO.intoSCO, CostFn.callMeanWithinBounds, withinPairs_zero,
    CostFn.callMean_certain _ p.tEnd ht, if_true, manhattanScaled_ok _ x hx]
  simp only [SSCO.toProb, CostFn.callMeanWithinBounds]
  cases h : withinVec p.bounds x with
  | error e => rfl
  | ok b =>
    cases b with
    | false => simp [bind, Except.bind, Except.map, CostFn.outsideCost]
    | true =>
      simp only [bind, Except.bind, if_true]
      cases p.hittingCost.callMean p.tEnd x <;> rfl

theorem hitTerms_last (p : SSCO T C D) (dflt : Config T) (xs : Schedule T) :
    ∀ (n : Nat) (t : Int), 1 ≤ t → xs.length = n + 1 → t + n = p.tEnd →
    (∀ x ∈ xs, x.length ≤ p.switchingCost.length) →
    (hitTerms p.intoSCO.toProb dflt (n + 1) t xs).map
        (fun hs => ((hs.map (·.cost)).sum, hs.map (·.output)))
      = (hitTerms p.toProb dflt (n + 1) t xs).map fun hs =>
        ((hs.map (·.cost)).sum + ((halfAbs p.switchingCost (xs.getLastD dflt) : ℚ) : ECost),
          hs.map (·.output)) := by
  have hend : p.intoSCO.toProb.tEnd = p.tEnd := rfl
  have hend' : p.toProb.tEnd = p.tEnd := rfl
  induction xs with
  | nil => intro n t _ h; simp at h
  | cons x xs ih =>
    intro n t h1 hl hT hx
    rw [hitTerms_succ, hitTerms_succ]
    have e1 : p.intoSCO.toProb.hitOrNone t x = p.intoSCO.toProb.hitCost t x := by
      simp [Prob.hitOrNone, hend, not_lt.2 (show t ≤ p.tEnd by omega)]
    have e2 : p.toProb.hitOrNone t x = p.toProb.hitCost t x := by
      simp [Prob.hitOrNone, hend', not_lt.2 (show t ≤ p.tEnd by omega)]
    simp only [List.headD_cons, List.tail_cons, e1, e2]
    cases n with
    | zero =>
      have hxs : xs = [] := by simpa using hl
      subst hxs
      have htT : t = p.tEnd := by simpa using hT
      subst htT
      rw [intoSCO_hitCost_last p h1 x (hx x (by simp))]
      simp only [hitTerms, slotTerms]
      cases p.toProb.hitCost p.tEnd x <;> simp [Except.map, bind, Except.bind]
    | succ n =>
      have ih' := ih n (t + 1) (by omega) (by simpa using hl) (by push_cast at hT; omega)
        (fun y hy => hx y (by simp [hy]))
      rw [intoSCO_hitCost p t h1 (by push_cast at hT; omega)]
      simp only [bind, Except.bind]
      cases p.toProb.hitCost t x with
      | error e => rfl
      | ok c =>
        simp only
        have hlast : (x :: xs).getLastD dflt = xs.getLastD dflt := by
          cases xs with
          | nil => simp at hl
          | cons y ys => simp
        rw [hlast]
        cases h3 : hitTerms p.intoSCO.toProb dflt (n + 1) (t + 1) xs <;>
        cases h4 : hitTerms p.toProb dflt (n + 1) (t + 1) xs <;>
        rw [h3, h4] at ih' <;> simp only [Except.map, Except.error.injEq, reduceCtorEq] at ih' ⊢
        · rw [ih']
        · simp only [Except.ok.injEq, Prod.mk.injEq] at ih' ⊢
          simp [ih'.1, ih'.2, add_assoc]

theorem hitTerms_finite_last (p : SSCO T C D) (dflt : Config T) (xs : Schedule T) :
    ∀ (n : Nat) (t : Int) (hs : List (Cost C D)), xs.length = n + 1 → t + n = p.tEnd →
    hitTerms p.toProb dflt (n + 1) t xs = .ok hs →
    (hs.map (·.cost)).sum = ⊤ ∨ ∀ j ∈ xs.getLastD dflt, (0 : T) ≤ j := by
  have hend' : p.toProb.tEnd = p.tEnd := rfl
  induction xs with
  | nil => intro n t hs h; simp at h
  | cons x xs ih =>
    intro n t hs hl hT h
    rw [hitTerms_succ] at h
    have e2 : p.toProb.hitOrNone t x = p.toProb.hitCost t x := by
      simp [Prob.hitOrNone, hend', not_lt.2 (show t ≤ p.tEnd by omega)]
    simp only [List.headD_cons, List.tail_cons, e2, bind, Except.bind] at h
    cases hc : p.toProb.hitCost t x with
    | error e => rw [hc] at h; simp at h
    | ok c =>
      rw [hc] at h
      cases n with
      | zero =>
        have hxs : xs = [] := by simpa using hl
        subst hxs
        simp only [hitTerms, slotTerms, Except.ok.injEq] at h
        subst h
        simp only [SSCO.toProb, CostFn.callMeanWithinBounds] at hc
        cases hw : withinVec p.bounds x with
        | error e => rw [hw] at hc; simp [bind, Except.bind] at hc
        | ok b =>
          rw [hw] at hc
          cases b with
          | false =>
            left
            simp [bind, Except.bind, CostFn.outsideCost] at hc
            subst hc; simp
          | true => right; simpa using withinVec_true_nonneg hw
      | succ n =>
        cases h4 : hitTerms p.toProb dflt (n + 1) (t + 1) xs with
        | error e => rw [h4] at h; simp at h
        | ok r =>
          rw [h4] at h
          simp only [Except.ok.injEq] at h
          subst h
          have hlast : (x :: xs).getLastD dflt = xs.getLastD dflt := by
            cases xs with
            | nil => simp at hl
            | cons y ys => simp
          rw [hlast]
          rcases ih n (t + 1) r (by simpa using hl) (by push_cast at hT; omega) h4 with h | h
          · left; simp [h]
          · exact Or.inr h

/-- **C04**. For every simplified problem with horizon at least one and every schedule covering the
horizon with configurations of the problem's dimension, the converted problem assigns the same
result (cost, output, or failure). -/
theorem C04_into_sco_preserves_objective (p : SSCO T C D) (xs : Schedule T)
    (hT : p.tEnd = xs.length) (h1 : 1 ≤ p.tEnd) (h0 : 0 ≤ p.d)
    (hd : ∀ x ∈ xs, (x.length : Int) = p.d) (hβ : (p.switchingCost.length : Int) = p.d) :
    p.intoSCO.toProb.objective xs = p.toProb.objective xs := by
  obtain ⟨n, hn⟩ : ∃ n, xs.length = n + 1 := ⟨xs.length - 1, by omega⟩
  have hl : ∀ x ∈ p.toProb.defaultConfig :: xs, x.length = p.d.toNat := by
    intro x hx; rcases List.mem_cons.1 hx with rfl | hx
    · simp [Prob.defaultConfig, Config.repeat, SSCO.toProb]
    · have := hd x hx; omega
  have hm := Simplified.mv_ok (SSCO.simplified p) p.d.toNat (by omega) _ hl false
  have hdef : p.intoSCO.toProb.defaultConfig = p.toProb.defaultConfig := rfl
  have hm2 : ∀ y ∈ p.toProb.defaultConfig :: xs, ∀ x ∈ p.toProb.defaultConfig :: xs,
      p.intoSCO.toProb.movement y x false
        = .ok (halfAbs p.switchingCost (Config.sub x y)) := by
    intro y hy x hx
    simp only [SCO.toProb, SSCO.intoSCO, assertP, Bool.not_false, if_true, bind, Except.bind]
    apply manhattanScaled_ok
    simp only [Config.sub, List.length_zipWith, hl x hx, hl y hy]
    omega
  unfold Prob.objective
  rw [hdef]
  show p.intoSCO.toProb.objectiveWithDefault' xs p.toProb.defaultConfig 1 false p.tEnd
    = p.toProb.objectiveWithDefault' xs p.toProb.defaultConfig 1 false p.tEnd
  rw [hT, objective_decomp p.toProb xs _ 1 false xs.length (Spec.moveCost false p.switchingCost) (by
      rw [padTo_self]; intro y hy x hx; exact hm y hy x (List.mem_cons_of_mem _ hx)),
    objective_decomp p.intoSCO.toProb xs _ 1 false xs.length
      (fun y x => halfAbs p.switchingCost (Config.sub x y)) (by
      rw [padTo_self]; intro y hy x hx; exact hm2 y hy x (List.mem_cons_of_mem _ hx)), padTo_self]
  have key := hitTerms_last p p.toProb.defaultConfig xs n 1 le_rfl hn (by omega)
    (fun x hx => by have := hd x hx; omega)
  have hfin := hitTerms_finite_last p p.toProb.defaultConfig xs n 1
  have hend : (1 : Int) + n = p.tEnd := by omega
  rw [hn]
  cases h3 : hitTerms p.intoSCO.toProb p.toProb.defaultConfig (n + 1) 1 xs <;>
  cases h4 : hitTerms p.toProb p.toProb.defaultConfig (n + 1) 1 xs <;>
  rw [h3, h4] at key <;> simp only [Except.map, Except.error.injEq, reduceCtorEq] at key ⊢
  · rw [key]
  · rename_i hs hs'
    simp only [Except.ok.injEq, Prod.mk.injEq, Cost.mk.injEq] at key ⊢
    refine ⟨?_, ?_⟩
    · rw [key.1]
      rcases hfin hs' hn hend h4 with h | h
      · simp [h]
      · rw [add_assoc, ← WithTop.coe_add]
        congr 2
        rw [halfAbs_nonneg _ _ h, totalMove_half _ p.d.toNat xs _ (hl _ (by simp))
          (fun x hx => hl x (by simp [hx]))]
        have ht := totalMove_telescope p.switchingCost p.d.toNat xs p.toProb.defaultConfig
          (hl _ (by simp)) (fun x hx => hl x (by simp [hx]))
        have hz : Spec.weighted p.switchingCost p.toProb.defaultConfig = 0 := weighted_zero _ _
        rw [hz] at ht
        have e : Spec.moveCost (T := T) false p.switchingCost = Spec.upCost p.switchingCost := by
          funext y x; simp [Spec.moveCost]
        rw [e]
        linarith
    · rw [Cost.sum_output, Cost.sum_output, key.2]

/-- C04 applies to a two-dimensional instance with a schedule that ends at a non-zero
configuration (so that the extra cost of the last slot matters). -/
example := C04_into_sco_preserves_objective Ex.ssco2 Ex.xs2 rfl (by decide) (by decide) (by decide) rfl

end Soco
