import Verif.Spec.Horizon
import Verif.Spec.Online
import Verif.Model.Horizon
import Verif.Lemmas.Optimiser
import Verif.Props.Convert
import Verif.Props.Utils
import Verif.Props.Results
import Verif.Props.Objective
import Mathlib.Data.List.GetD
import Mathlib.Tactic.CongrExclamation

/-! # C39: horizon control -/

namespace Soco
open Spec

section
variable {C D : Type} [OutSuccess C] [OutFailure D]

theorem totalCost_shift {X : Type} (hit : Int → X → ECost) (mv : X → X → ℚ) (α : ℚ) (s : Int) (xs : List X) :
    ∀ (t : Int) (prev : X), totalCost (fun u x => hit (u + s) x) mv α t prev xs = totalCost hit mv α (t + s) prev xs := by
  induction xs with
  | nil => intros; rfl
  | cons x xs ih =>
    intro t prev
    simp only [totalCost, ih]
    congr 2
    ring

theorem totalCost_congr {X : Type} (h1 h2 : Int → X → ECost) (mv : X → X → ℚ) (α : ℚ) (xs : List X) :
    ∀ (t : Int) (prev : X), (∀ s : Int, t ≤ s → s < t + xs.length → ∀ x ∈ xs, h1 s x = h2 s x) →
    totalCost h1 mv α t prev xs = totalCost h2 mv α t prev xs := by
  induction xs with
  | nil => intros; rfl
  | cons x xs ih =>
    intro t prev h
    simp only [totalCost]
    rw [h t le_rfl (by simp) x (by simp), ih (t + 1) x fun s hs hs' y hy => h s (by omega) (by simp; omega) y (by simp [hy])]

theorem callMean_of_predictive (f g : CostFn (Config ℚ) C D) (t s : Int) (x : Config ℚ)
    (h : f.callPredictive t x = g.callPredictive s x) : f.callMean t x = g.callMean s x := by
  have e : ∀ (f : CostFn (Config ℚ) C D) (t : Int), f.callMean t x = (f.callPredictive t x).bind Cost.mean := by
    intro f t
    simp only [CostFn.callMean, CostFn.callPredictive, SingleCostFn.callMean, bind]
    cases f.get t <;> rfl
  rw [e, e, h]

theorem reset_callMean (p : SSCO ℚ C D) (hit : Int → Config ℚ → ECost) (hp : Usable p hit) (s t : Int) (ht : 1 ≤ t)
    (hT : t ≤ p.tEnd - s) (x : Config ℚ) (hx : InBox p.bounds x) :
    ∃ o, (p.reset s).hittingCost.callMean t x = .ok ⟨fromSlotOne hit (t + s) x, o⟩ := by
  by_cases h1 : t + s < 1
  · have h := C08_reset_before p.hittingCost s t h1 ht x
    refine ⟨.none, ?_⟩
    have e : (p.reset s).hittingCost.callMean t x = ((p.reset s).hittingCost.callPredictive t x).bind Cost.mean := by
      simp only [CostFn.callMean, CostFn.callPredictive, SingleCostFn.callMean, bind]
      cases (p.reset s).hittingCost.get t <;> rfl
    rw [e, show (p.reset s).hittingCost = p.hittingCost.reset s from rfl, h]
    simp [fromSlotOne, h1, Except.bind, Cost.mean, meanE, ModelOutput.verticalReduce, Cost.dflt, ECost.divQ, bind, pure,
      Except.pure]
  · obtain ⟨o, ho⟩ := hp.defined (t + s) (by omega) (by omega) x hx
    refine ⟨o, ?_⟩
    rw [fromSlotOne, if_neg h1, ← ho]
    apply callMean_of_predictive
    rw [show (p.reset s).hittingCost = p.hittingCost.reset s from rfl,
      C08_reset_slot_any p.hittingCost s t (by omega) ht x]
    cases h : p.hittingCost.callPredictive (t + s) x with
    | error e => rfl
    | ok r =>
      have := hp.certain (t + s) (by omega) (by omega) x r h
      simp [this]

open Classical in
/-- The hitting cost of the reset problem, infinite outside of the decision space. -/
theorem reset_hitCost (p : SSCO ℚ C D) (hit : Int → Config ℚ → ECost) (hp : Usable p hit) (s t : Int) (ht : 1 ≤ t)
    (hT : t ≤ p.tEnd - s) (x : Config ℚ) (hx : x.length = p.bounds.length) :
    ∃ o, (p.reset s).toProb.hitCost t x = .ok ⟨if InBox p.bounds x then fromSlotOne hit (t + s) x else ⊤, o⟩ := by
  have e : (p.reset s).toProb.hitCost t x =
      (p.reset s).hittingCost.callMeanWithinBounds t x (withinVec p.bounds) := rfl
  rw [e]
  unfold CostFn.callMeanWithinBounds
  by_cases hb : InBox p.bounds x
  · obtain ⟨o, ho⟩ := reset_callMean p hit hp s t ht hT x hb
    refine ⟨o, ?_⟩
    rw [(withinVec_eq p.bounds x).1.2 hb]
    simp only [bind, Except.bind, if_true, ho, if_pos hb]
  · refine ⟨.failure OutFailure.outside, ?_⟩
    rw [(withinVec_eq p.bounds x).2.2.2 ⟨hx, hb⟩]
    simp [bind, Except.bind, hb, CostFn.outsideCost]

theorem reset_objective (p : SSCO ℚ C D) (hit : Int → Config ℚ → ECost) (hp : Usable p hit) (s : Int) (n : Nat)
    (hn : (n : Int) = p.tEnd - s) (prev : Config ℚ) (hprev : prev.length = p.bounds.length) (xs : Schedule ℚ)
    (hxs : n ≤ xs.length) (hl : ∀ x ∈ xs, x.length = p.bounds.length) :
    ∃ c, (p.reset s).toProb.objectiveWithDefault xs prev = .ok c ∧
      ((∀ x ∈ xs.take n, InBox p.bounds x) → c.cost = planCost hit p.switchingCost (s + 1) prev (xs.take n)) := by
  classical
  have epad : padTo n prev xs = xs.take n := by simp [padTo, hxs]
  have hl' : ∀ x ∈ xs.take n, x.length = p.bounds.length := fun x hx => hl x (List.mem_of_mem_take hx)
  obtain ⟨o, ho⟩ := C02_objective_eq_totalCost (p.reset s).toProb xs prev 1 false n
    (fun t x => if InBox p.bounds x then fromSlotOne hit (t + s) x else ⊤) (upCost p.switchingCost)
    (by
      intro t h1 h2 h3 x hx
      rw [epad] at hx
      exact reset_hitCost p hit hp s t h1 h3 x (hl' x hx))
    (by
      intro y hy x hx
      rw [epad] at hx hy
      have hy' : y.length = p.bounds.length := by
        rcases List.mem_cons.1 hy with rfl | hy
        · exact hprev
        · exact hl' y hy
      have := scaledMovement_eq p.switchingCost x y false (by rw [hl' x hx, hy']) (by rw [hl' x hx, hp.costs])
      exact this)
  have e : (p.reset s).toProb.objectiveWithDefault xs prev =
      (p.reset s).toProb.objectiveWithDefault' xs prev 1 false n := by
    unfold Prob.objectiveWithDefault
    rw [hn]; rfl
  refine ⟨_, by rw [e, ho], ?_⟩
  intro hb
  simp only [epad]
  rw [planCost, show s + 1 = 1 + s by ring, ← totalCost_shift]
  apply totalCost_congr
  intro u h1 h2 x hx
  have h3 : ¬ u > (p.reset s).toProb.tEnd := by
    show ¬ u > p.tEnd - s
    rw [← hn]
    have : (xs.take n).length = n := by simp [hxs]
    rw [this] at h2
    omega
  rw [if_neg h3, if_pos (hb x hx)]

end

namespace Horizon
section
variable {C D : Type} [OutSuccess C] [OutFailure D]

theorem box_eq (o : Online (SSCO ℚ C D)) (hd : o.p.d = o.p.bounds.length) :
    box o = .ok (List.replicate (o.w + 1).toNat (o.p.bounds.map fun u : ℚ => ((0 : ℚ), u))).flatten := by
  have h : (List.range o.p.d.toNat).mapM (fun k : Nat => do
      let u ← idx o.p.bounds k
      .ok ((0 : ℚ), u)) = (.ok (o.p.bounds.map fun u : ℚ => ((0 : ℚ), u)) : Res _) := by
    rw [hd, Int.toNat_natCast]
    rw [mapM_ok_of (g := fun k => ((0 : ℚ), (o.p.bounds[k]?).getD 0))]
    · congr 1
      apply List.ext_getElem?
      intro i
      by_cases hi : i < o.p.bounds.length
      · simp [hi]
      · simp [hi]
    · intro k hk
      have hk' := List.mem_range.1 hk
      simp [idx, List.getElem?_eq_getElem hk', bind, Except.bind]
  unfold box
  rw [h]
  simp only [bind, Except.bind, List.flatMap_def]
  rw [List.map_const', List.length_range]

theorem inBox_iff (bounds : List ℚ) (x : Config ℚ) :
    InBoxQ (bounds.map fun u : ℚ => ((0 : ℚ), u)) x ↔ InBox bounds x := by
  unfold InBoxQ InBox
  rw [List.forall₂_map_left_iff]

theorem inBox_blocks (b : List (ℚ × ℚ)) (n : Nat) (raw : List ℚ) :
    InBoxQ (List.replicate n b).flatten raw ↔ ∃ xs : Schedule ℚ, xs.length = n ∧ xs.flatten = raw ∧ ∀ x ∈ xs, InBoxQ b x := by
  unfold InBoxQ
  induction n generalizing raw with
  | zero =>
    simp only [List.replicate_zero, List.flatten_nil, List.forall₂_nil_left_iff]
    constructor
    · rintro rfl; exact ⟨[], rfl, rfl, by simp⟩
    · rintro ⟨xs, h1, h2, _⟩
      rw [List.length_eq_zero_iff.1 h1] at h2; simpa using h2.symm
  | succ n ih =>
    rw [List.replicate_succ, List.flatten_cons]
    constructor
    · intro h
      have h1 := List.forall₂_take_append _ _ _ h.flip
      have h2 := List.forall₂_drop_append _ _ _ h.flip
      obtain ⟨xs, h3, h4, h5⟩ := (ih _).1 h2.flip
      refine ⟨raw.take b.length :: xs, by simp [h3], by simp [h4], ?_⟩
      intro x hx
      rcases List.mem_cons.1 hx with rfl | hx
      · exact h1.flip
      · exact h5 x hx
    · rintro ⟨xs, h1, rfl, h3⟩
      cases xs with
      | nil => simp at h1
      | cons x xs =>
        rw [List.flatten_cons]
        exact List.rel_append (h3 x (by simp)) ((ih _).2 ⟨xs, by simpa using h1, rfl, fun y hy => h3 y (by simp [hy])⟩)

theorem slice_flatten (d : Nat) (xs : Schedule ℚ) (hd : ∀ x ∈ xs, x.length = d) (i : Nat) (x : Config ℚ)
    (hx : xs[i]? = some x) : slice xs.flatten (d * i) (d * i + d) = .ok x := by
  have h := C12_from_raw_flatten d xs hd
  have hlen : xs.flatten.length = d * xs.length := by
    by_contra hc
    rw [(C12_from_raw_accepts d xs.length xs.flatten).2 hc] at h
    cases h
  rw [Schedule.fromRaw, if_pos hlen, Except.ok.injEq] at h
  have hi : i < xs.length := (List.getElem?_eq_some_iff.1 hx).1
  have h2 : xs[i]? = some ((xs.flatten.drop (d * i)).take d) := by
    conv_lhs => rw [← h]
    simp [hi]
  have h3 : d * i + d ≤ xs.flatten.length := by
    rw [hlen]
    calc d * i + d = d * (i + 1) := by ring
      _ ≤ d * xs.length := Nat.mul_le_mul_left _ hi
  rw [slice, if_pos ⟨by omega, h3⟩, Nat.add_sub_cancel_left]
  rw [h2, Option.some.injEq] at hx
  rw [hx]

/-- What one call of the optimiser plans. -/
theorem next_plan (S : Num.Solver) (hS : Sound S) (k : Int) (o : Online (SSCO ℚ C D)) (hit : Int → Config ℚ → ECost)
    (hp : Usable o.p hit) (hk : 1 ≤ k) (hk' : k ≤ o.w + 1) (prev : Config ℚ) (hprev : prev.length = o.p.bounds.length) :
    ∃ plan : Schedule ℚ, (plan.length : Int) = o.w + 1 ∧ Plan o.p.bounds plan ∧
      (∃ a b, next S k o o.p.tEnd prev = .ok (a, b) ∧ plan[0]? = some a ∧ plan[(o.w + 1 - k).toNat]? = some b) ∧
      (Exact S → OptimalPlan hit o.p.switchingCost o.p.bounds (o.p.tEnd + k - (o.w + 1)) prev
        (plan.take (o.w + 2 - k).toNat)) := by
  obtain ⟨W, hW⟩ : ∃ W : Nat, (W : Int) = o.w + 1 := ⟨(o.w + 1).toNat, by omega⟩
  obtain ⟨n, hn⟩ : ∃ n : Nat, (n : Int) = o.w + 2 - k := ⟨(o.w + 2 - k).toNat, by omega⟩
  have hdn : o.p.d.toNat = o.p.bounds.length := by rw [hp.dim]; simp
  have hWn : (o.w + 1).toNat = W := by omega
  set d := o.p.bounds.length with hdd
  set b := o.p.bounds.map fun u : ℚ => ((0 : ℚ), u) with hb
  set tS := o.p.tEnd + k - (o.w + 1) with htS
  have hbl : b.length = d := by simp [hb, hdd]
  have hgb : GridBox (List.replicate W b).flatten := by
    intro c hc
    simp only [List.mem_flatten, List.mem_replicate] at hc
    obtain ⟨_, ⟨_, rfl⟩, hc⟩ := hc
    simp only [hb, List.mem_map] at hc
    obtain ⟨u, hu, rfl⟩ := hc
    exact ⟨(hp.bound u hu).1, ⟨0, by simp⟩, (hp.bound u hu).2⟩
  have hlen : (List.replicate W b).flatten.length = d * W := by
    simp [hbl, Nat.mul_comm]
  -- the objective on plans
  have hobj : ∀ raw : List ℚ, raw.length = d * W → ∃ c, objective o tS prev raw = .ok c := by
    intro raw hraw
    obtain ⟨xs, h1, h2, h3, h4⟩ := (C12_from_raw_accepts d W raw).1 hraw
    obtain ⟨c, hc, _⟩ := reset_objective o.p hit hp (tS - 1) n (by omega) prev hprev xs (by omega) h3
    exact ⟨c.cost, by simp [objective, hdn, hWn, h1, hc, bind, Except.bind]⟩
  have hval : ∀ xs : Schedule ℚ, xs.length = W → Plan o.p.bounds xs →
      objective o tS prev xs.flatten = .ok (planCost hit o.p.switchingCost tS prev (xs.take n)) := by
    intro xs hx hpl
    have hl : ∀ x ∈ xs, x.length = d := fun x h => (List.Forall₂.length_eq (hpl x h).1).symm
    obtain ⟨c, hc, hv⟩ := reset_objective o.p hit hp (tS - 1) n (by omega) prev hprev xs (by omega) hl
    have := hv fun x hx => (hpl x (List.mem_of_mem_take hx)).1
    rw [show tS - 1 + 1 = tS by ring] at this
    have hf := C12_from_raw_flatten d xs hl
    rw [hx] at hf
    simp only [objective, hdn, hWn, bind, Except.bind, hf, hc, this]
  obtain ⟨x, v, h1, h2, h3, h4, h5, _⟩ := minimize_sound hS hgb none (by simp) [] (f := objective o tS prev)
    (by intro y hy; exact hobj y (by rw [hy, hlen])) (by simp)
  obtain ⟨plan, p1, p2, p3⟩ := (inBox_blocks b W x).1 h2
  have hplan : Plan o.p.bounds plan := fun y hy => ⟨(inBox_iff _ _).1 (p3 y hy), fun j hj => h3 j (by
    rw [← p2]; exact List.mem_flatten.2 ⟨y, hy, hj⟩)⟩
  have hl : ∀ x ∈ plan, x.length = d := fun x h => (List.Forall₂.length_eq (hplan x h).1).symm
  refine ⟨plan, by omega, hplan, ?_, ?_⟩
  · obtain ⟨a, ha⟩ : ∃ a, plan[0]? = some a := ⟨_, List.getElem?_eq_getElem (by omega)⟩
    obtain ⟨y, hy⟩ : ∃ a, plan[(o.w + 1 - k).toNat]? = some a := ⟨_, List.getElem?_eq_getElem (by omega)⟩
    refine ⟨a, y, ?_, ha, hy⟩
    have s1 := slice_flatten d plan hl 0 a ha
    have s2 := slice_flatten d plan hl _ y hy
    rw [p2] at s1 s2
    have eoff : (o.p.d * (o.p.tEnd - tS)).toNat = d * (o.w + 1 - k).toNat := by
      have : o.p.tEnd - tS = ((o.w + 1 - k).toNat : Int) := by omega
      rw [this, hp.dim, ← Nat.cast_mul, Int.toNat_natCast]
    simp only [next, assertP, hk, hk', decide_true, Bool.and_true, if_true, bind, Except.bind, box_eq o hp.dim, hWn]
    rw [← hb, ← htS, h1]
    simp only [eoff, hdn, s2]
    rw [mul_zero, zero_add] at s1
    rw [s1]
  · intro hE other ho hpo
    have hoth : other.length = n := by rw [ho, List.length_take]; omega
    -- extend the other plan
    have hz : InBoxQ b (List.replicate d 0) := by
      rw [hb, inBox_iff]
      unfold InBox
      rw [hdd, List.forall₂_iff_get]
      refine ⟨by simp, fun i h1 h2 => ?_⟩
      simp only [List.get_eq_getElem, List.getElem_replicate]
      exact ⟨le_rfl, (hp.bound _ (List.getElem_mem _)).1⟩
    have hfull : Plan o.p.bounds (other ++ List.replicate (W - n) (List.replicate d 0)) := by
      intro y hy
      rcases List.mem_append.1 hy with hy | hy
      · exact hpo y hy
      · rw [(List.mem_replicate.1 hy).2]
        exact ⟨(inBox_iff _ _).1 hz, fun j hj => ⟨0, by simp [(List.mem_replicate.1 hj).2]⟩⟩
    have v1 := hval _ (by simp; omega) hfull
    have v2 := hval plan p1 hplan
    rw [List.take_append_of_le_length (by omega), List.take_of_length_le (by omega)] at v1
    have hbest := hE.best (List.replicate W b).flatten (objective o tS prev)
      ((none : Option (List ℚ)).getD ((List.replicate W b).flatten.map Prod.snd)) [] hgb _ _ _
      ((inBox_blocks b W _).2 ⟨_, by simp; omega, rfl, fun y hy => (inBox_iff _ _).2 (hfull y hy).1⟩)
      (fun j hj => by
        obtain ⟨y, hy, hj⟩ := List.mem_flatten.1 hj
        exact (hfull y hy).2 j hj) (by intro c hc; simp at hc) (by rw [← h4, ← p2]; exact v2) v1
    have : (o.w + 2 - k).toNat = n := by omega
    rw [this]
    exact hbest

/-- **C39** (receding horizon control, one slot). Given an optimiser that returns points within its bounds, the decision
lies in the decision space. With an exact optimiser it minimises the cost of the *current* slot only: its hitting cost
plus the cost of switching from the previous configuration. The property asks for the cost of the current and the next
`w` slots. -/
theorem C39_rhc_step_partial (S : Num.Solver) (hS : Sound S) (o : Online (SSCO ℚ C D)) (hit : Int → Config ℚ → ECost)
    (hp : Usable o.p hit) (hw : 0 ≤ o.w) (xs : Schedule ℚ) (hx : ∀ x ∈ xs, x.length = o.p.bounds.length) (m : Unit) :
    ∃ x, (rhc S).call o o.p.tEnd xs m = .ok (x, none) ∧ InBox o.p.bounds x ∧
      (Exact S → OptimalPlan hit o.p.switchingCost o.p.bounds o.p.tEnd
        (xs.getLastD (List.replicate o.p.bounds.length 0)) [x]) := by
  have hd : o.p.d.toNat = o.p.bounds.length := by rw [hp.dim]; simp
  have hprev : (xs.getLastD (List.replicate o.p.bounds.length 0)).length = o.p.bounds.length := by
    rw [List.getLastD_eq_getLast?]
    cases h : xs.getLast? with
    | none => simp
    | some y => simpa using hx y (List.mem_of_getLast? h)
  obtain ⟨plan, h1, h2, ⟨a, b, h3, h4, h5⟩, h6⟩ := next_plan S hS (o.w + 1) o hit hp (by omega) le_rfl _ hprev
  have e0 : (o.w + 1 - (o.w + 1)).toNat = 0 := by omega
  have e1 : (o.w + 2 - (o.w + 1)).toNat = 1 := by omega
  rw [e0] at h5
  cases plan with
  | nil => simp at h5
  | cons y plan =>
    simp only [List.getElem?_cons_zero, Option.some.injEq] at h5
    subst h5
    refine ⟨y, ?_, (h2 y (by simp)).1, ?_⟩
    · simp only [rhc, Schedule.nowWithDefault, Config.repeat, hd, h3, bind, Except.bind]
    · intro hE
      have := h6 hE
      rw [e1, show o.p.tEnd + (o.w + 1) - (o.w + 1) = o.p.tEnd by ring] at this
      simpa using this

theorem run_rhc (S : Num.Solver) (hS : Sound S) (bounds : List ℚ) (w : Nat) (hit : Int → Config ℚ → ECost) :
    ∀ (os : List (Online (SSCO ℚ C D))) (xs : Schedule ℚ),
      (∀ (i : Nat) o, os[i]? = some o → o.p.tEnd = xs.length + i + 1) →
      (∀ o ∈ os, Usable o.p hit ∧ o.p.bounds = bounds ∧ o.w = w) → (∀ x ∈ xs, InBox bounds x) →
      ∃ ys, Run (fun p : SSCO ℚ C D => p.tEnd) (rhc S) xs none os ys none ∧ ys.length = xs.length + os.length ∧
        ∀ x ∈ ys, InBox bounds x := by
  intro os
  induction os with
  | nil => intro xs _ _ hx; exact ⟨xs, .nil _ _, by simp, hx⟩
  | cons o os ih =>
    intro xs ht hu hx
    obtain ⟨hp, hb, hw⟩ := hu o (by simp)
    have hT : o.p.tEnd = (xs.length : Int) + 1 := by simpa using ht 0 o rfl
    obtain ⟨x, h1, h2, _⟩ := C39_rhc_step_partial S hS o hit hp (by omega) xs
      (fun x h => by rw [hb]; exact (List.Forall₂.length_eq (hx x h)).symm) ()
    rw [hb] at h2
    obtain ⟨ys, h3, h4, h5⟩ := ih (xs ++ [x]) (by
        intro i o' hi
        have := ht (i + 1) o' (by simpa using hi)
        rw [this]; simp; ring)
      (fun o' ho' => hu o' (by simp [ho'])) (by
        intro y hy
        rcases List.mem_append.1 hy with hy | hy
        · exact hx y hy
        · rw [List.mem_singleton.1 hy]; exact h2)
    refine ⟨ys, .step xs none o os x none ys none hT ?_ h3, by simp at h4 ⊢; omega, h5⟩
    rw [hT] at h1
    exact h1

/-- **C39** (receding horizon control, histories). On every history the algorithm succeeds in all slots and every
decision lies in the decision space. -/
theorem C39_rhc_history (S : Num.Solver) (hS : Sound S) (bounds : List ℚ) (w : Nat) (hit : Int → Config ℚ → ECost)
    (os : List (Online (SSCO ℚ C D))) (h : Shown bounds w hit os) :
    ∃ ys, Run (fun p : SSCO ℚ C D => p.tEnd) (rhc S) [] none os ys none ∧ ys.length = os.length ∧
      ∀ x ∈ ys, InBox bounds x := by
  obtain ⟨ys, h1, h2, h3⟩ := run_rhc S hS bounds w hit os [] (by simpa using h.slot) h.usable (by simp)
  exact ⟨ys, h1, by simpa using h2, h3⟩

/-- One of the plans of averaging fixed horizon control. -/
structure IsPlan (S : Num.Solver) (o : Online (SSCO ℚ C D)) (hit : Int → Config ℚ → ECost) (mem : Memory) (k : Int)
    (P : Schedule ℚ) : Prop where
  len : (P.length : Int) = o.w + 1
  plan : Plan o.p.bounds P
  best : ∃ prev, mem[(k - 1).toNat]? = some prev ∧ (Exact S →
    OptimalPlan hit o.p.switchingCost o.p.bounds (o.p.tEnd + k - (o.w + 1)) prev (P.take (o.w + 2 - k).toNat))

theorem add_getD (x y : Config ℚ) (h : x.length = y.length) (j : Nat) :
    (Config.add x y).getD j 0 = x.getD j 0 + y.getD j 0 := by
  unfold Config.add
  simp only [List.getD_eq_getElem?_getD, List.getElem?_zipWith]
  by_cases hj : j < x.length
  · rw [List.getElem?_eq_getElem hj, List.getElem?_eq_getElem (h ▸ hj)]; simp
  · rw [List.getElem?_eq_none (by omega), List.getElem?_eq_none (by omega)]; simp

theorem plans_ok (S : Num.Solver) (hS : Sound S) (o : Online (SSCO ℚ C D)) (hit : Int → Config ℚ → ECost)
    (hp : Usable o.p hit) (mem : Memory) (hm : (mem.length : Int) = o.w + 1)
    (hml : ∀ x ∈ mem, x.length = o.p.bounds.length) :
    ∀ (ks : List Int) (acc : Config ℚ) (pm : Memory), (∀ k ∈ ks, 1 ≤ k ∧ k ≤ o.w + 1) →
      acc.length = o.p.bounds.length →
      ∃ Ps : List (Schedule ℚ), List.Forall₂ (IsPlan S o hit mem) ks Ps ∧
        ∃ x, plans S o o.p.tEnd mem ks acc pm = .ok (x, pm ++ Ps.map fun P : Schedule ℚ => P.getD 0 []) ∧
          x.length = o.p.bounds.length ∧
          (∀ j, x.getD j 0 = acc.getD j 0 +
            (List.zipWith (fun k P => ((P : Schedule ℚ).getD (o.w + 1 - k).toNat []).getD j 0) ks Ps).sum) ∧
          ∀ j u, o.p.bounds[j]? = some u → acc.getD j 0 ≤ x.getD j 0 ∧ x.getD j 0 ≤ acc.getD j 0 + ks.length * u := by
  intro ks
  induction ks with
  | nil => intro acc pm _ ha; exact ⟨[], .nil, acc, by simp [plans], ha, by simp, by simp⟩
  | cons k ks ih =>
    intro acc pm hk ha
    obtain ⟨hk1, hk2⟩ := hk k (by simp)
    have hi : (k - 1).toNat < mem.length := by omega
    obtain ⟨P, h1, h2, ⟨a, b, h3, h4, h5⟩, h6⟩ := next_plan S hS k o hit hp hk1 hk2 (mem[(k - 1).toNat])
      (hml _ (List.getElem_mem _))
    have hb := (h2 b (List.mem_of_getElem? h5)).1
    have hbl : b.length = o.p.bounds.length := (List.Forall₂.length_eq hb).symm
    obtain ⟨Ps, g1, x, g2, g3, g4, g5⟩ := ih (Config.add acc b) (pm ++ [a]) (fun k' hk' => hk k' (by simp [hk']))
      (by simp [Config.add, ha, hbl])
    refine ⟨P :: Ps, .cons ⟨h1, h2, _, List.getElem?_eq_getElem hi, h6⟩ g1, x, ?_, g3, ?_, ?_⟩
    · simp only [plans, idx, List.getElem?_eq_getElem hi, bind, Except.bind, h3, g2]
      simp [List.getD_eq_getElem?_getD, h4]
    · intro j
      rw [g4 j, add_getD acc b (by rw [ha, hbl])]
      simp only [List.zipWith_cons_cons, List.sum_cons]
      have : P.getD (o.w + 1 - k).toNat [] = b := by simp [List.getD_eq_getElem?_getD, h5]
      rw [this]; ring
    · intro j u hu
      have := g5 j u hu
      rw [add_getD acc b (by rw [ha, hbl])] at this
      have hbj : 0 ≤ b.getD j 0 ∧ b.getD j 0 ≤ u := by
        have hj := (List.getElem?_eq_some_iff.1 hu).1
        have := (List.forall₂_iff_get.1 hb).2 j hj (by omega)
        simp only [List.get_eq_getElem] at this
        rw [List.getD_eq_getElem _ _ (by omega)]
        rw [List.getElem?_eq_getElem hj, Option.some.injEq] at hu
        rw [← hu]
        exact this
      rw [List.length_cons]
      push_cast
      constructor <;> linarith [this.1, this.2, hbj.1, hbj.2]

/-- **C39** (averaging fixed horizon control, one slot). There are `w + 1` plans, one for each start in the slots
`t - w, …, t`; every plan consists of `w + 1` configurations of the decision space, and the decision is the mean of what the
plans schedule for slot `t`, hence in the decision space. The first configurations of the plans are memorised. With an exact
optimiser the plan which starts in slot `s` minimises the cost of the slots `s, …, t`, from the memorised configuration. The
property asks that it minimises the cost of the slots `s, …, s + w`. -/
theorem C39_afhc_step_partial (S : Num.Solver) (hS : Sound S) (o : Online (SSCO ℚ C D)) (hit : Int → Config ℚ → ECost)
    (hp : Usable o.p hit) (w : Nat) (hw : o.w = w) (xs : Schedule ℚ) (mem : Memory) (hm : mem.length = w + 1)
    (hml : ∀ x ∈ mem, x.length = o.p.bounds.length) :
    ∃ Ps : List (Schedule ℚ), Ps.length = w + 1 ∧
      (∀ (i : Nat) P, Ps[i]? = some P → P.length = w + 1 ∧ Plan o.p.bounds P ∧
        ∃ prev, mem[i]? = some prev ∧ (Exact S →
          OptimalPlan hit o.p.switchingCost o.p.bounds (o.p.tEnd - w + i) prev (P.take (w + 1 - i)))) ∧
      ∃ x, (afhc S).call o o.p.tEnd xs mem = .ok (x, some (Ps.map fun P : Schedule ℚ => P.getD 0 [])) ∧
        InBox o.p.bounds x ∧
        ∀ j, x.getD j 0 = (Ps.mapIdx fun i P => ((P : Schedule ℚ).getD (w - i) []).getD j 0).sum / (w + 1) := by
  have hd : o.p.d.toNat = o.p.bounds.length := by rw [hp.dim]; simp
  obtain ⟨Ps, h1, x, h2, h3, h4, h5⟩ := plans_ok S hS o hit hp mem (by omega) hml (timeRange 1 (o.w + 1))
    (Config.repeat 0 o.p.d.toNat) [] (by
      intro k hk
      simp only [timeRange, List.mem_map, List.mem_range] at hk
      obtain ⟨i, hi, rfl⟩ := hk
      omega) (by simp [Config.repeat, hd])
  have hlen : (timeRange 1 (o.w + 1)).length = w + 1 := by simp [timeRange]; omega
  have hPl : Ps.length = w + 1 := by rw [← List.Forall₂.length_eq h1, hlen]
  have hz : ∀ j : Nat, (Config.repeat (0 : ℚ) o.p.d.toNat).getD j 0 = 0 := by
    intro j
    simp only [Config.repeat, List.getD_eq_getElem?_getD, List.getElem?_replicate]
    split <;> simp
  have hkth : ∀ (i : Nat) (h : i < (timeRange 1 (o.w + 1)).length), (timeRange 1 (o.w + 1))[i] = 1 + (i : Int) := by
    intro i h
    simp [timeRange]
  have hdiv : ∀ j, (Config.divQ x ((o.w + 1 : Int) : ℚ)).getD j 0 = x.getD j 0 / (w + 1) := by
    intro j
    simp only [Config.divQ, List.getD_eq_getElem?_getD, List.getElem?_map, hw]
    cases x[j]? with
    | none => simp
    | some a => simp
  refine ⟨Ps, hPl, ?_, Config.divQ x ((o.w + 1 : Int) : ℚ), ?_, ?_, ?_⟩
  · intro i P hP
    have hi : i < Ps.length := (List.getElem?_eq_some_iff.1 hP).1
    have := (List.forall₂_iff_get.1 h1).2 i (by omega) hi
    simp only [List.get_eq_getElem, hkth] at this
    rw [List.getElem?_eq_getElem hi, Option.some.injEq] at hP
    rw [hP] at this
    obtain ⟨p1, p2, prev, p3, p4⟩ := this
    refine ⟨by omega, p2, prev, ?_, ?_⟩
    · rw [← p3]; congr 1; omega
    · intro hE
      have := p4 hE
      rw [show o.p.tEnd + (1 + (i : Int)) - (o.w + 1) = o.p.tEnd - w + i by rw [hw]; ring,
        show (o.w + 2 - (1 + (i : Int))).toNat = w + 1 - i by omega] at this
      exact this
  · simp only [afhc, h2, bind, Except.bind, List.nil_append]
  · unfold InBox
    rw [List.forall₂_iff_get]
    have hl : (Config.divQ x ((o.w + 1 : Int) : ℚ)).length = o.p.bounds.length := by simp [Config.divQ, h3]
    refine ⟨hl.symm, fun j hj hj' => ?_⟩
    have := h5 j o.p.bounds[j] (List.getElem?_eq_getElem hj)
    rw [hz, hlen] at this
    have e := hdiv j
    rw [List.getD_eq_getElem _ _ hj'] at e
    simp only [List.get_eq_getElem]
    have hw1 : (0 : ℚ) < w + 1 := by positivity
    rw [e]
    push_cast at this
    refine ⟨div_nonneg this.1 hw1.le, ?_⟩
    rw [div_le_iff₀ hw1]
    linarith [this.2]
  · intro j
    rw [hdiv, h4, hz, zero_add]
    congr 2
    apply List.ext_getElem
    · simp [hlen, hPl]
    · intro i h1 h2
      simp only [List.getElem_zipWith, List.getElem_mapIdx, hkth]
      congr 2
      omega

theorem run_afhc (S : Num.Solver) (hS : Sound S) (bounds : List ℚ) (w : Nat) (hit : Int → Config ℚ → ECost) :
    ∀ (os : List (Online (SSCO ℚ C D))) (xs : Schedule ℚ) (m : Option Memory),
      (∀ (i : Nat) o, os[i]? = some o → o.p.tEnd = xs.length + i + 1) →
      (∀ o ∈ os, Usable o.p hit ∧ o.p.bounds = bounds ∧ o.w = w) → (∀ x ∈ xs, InBox bounds x) →
      (∀ mem ∈ m, mem.length = w + 1 ∧ ∀ x ∈ mem, x.length = bounds.length) →
      ∃ ys m', Run (fun p : SSCO ℚ C D => p.tEnd) (afhc S) xs m os ys m' ∧ ys.length = xs.length + os.length ∧
        ∀ x ∈ ys, InBox bounds x := by
  intro os
  induction os with
  | nil => intro xs m _ _ hx _; exact ⟨xs, m, .nil _ _, by simp, hx⟩
  | cons o os ih =>
    intro xs m ht hu hx hm
    obtain ⟨hp, hb, hw⟩ := hu o (by simp)
    have hT : o.p.tEnd = (xs.length : Int) + 1 := by simpa using ht 0 o rfl
    have hm' : (m.getD ((afhc S).default o)).length = w + 1 ∧
        ∀ x ∈ m.getD ((afhc S).default o), x.length = o.p.bounds.length := by
      cases m with
      | some mem => rw [hb]; exact hm mem rfl
      | none =>
        refine ⟨by simp [afhc, hw], ?_⟩
        intro x hx
        simp only [afhc, Option.getD_none, List.mem_replicate] at hx
        rw [hx.2, hp.dim]
        simp [Config.repeat]
    obtain ⟨Ps, p1, p2, x, h1, h2, _⟩ := C39_afhc_step_partial S hS o hit hp w hw xs _ hm'.1 hm'.2
    rw [hb] at h2
    obtain ⟨ys, m'', h3, h4, h5⟩ := ih (xs ++ [x]) (some (Ps.map fun P : Schedule ℚ => P.getD 0 [])) (by
        intro i o' hi
        have := ht (i + 1) o' (by simpa using hi)
        rw [this]; simp; ring)
      (fun o' ho' => hu o' (by simp [ho'])) (by
        intro y hy
        rcases List.mem_append.1 hy with hy | hy
        · exact hx y hy
        · rw [List.mem_singleton.1 hy]; exact h2)
      (by
        intro mem hmem
        simp only [Option.mem_def, Option.some.injEq] at hmem
        subst hmem
        refine ⟨by simp [p1], ?_⟩
        intro y hy
        simp only [List.mem_map] at hy
        obtain ⟨P, hP, rfl⟩ := hy
        obtain ⟨i, hi, hPi⟩ := List.mem_iff_getElem.1 hP
        obtain ⟨q1, q2, _⟩ := p2 i P (by rw [List.getElem?_eq_getElem hi, hPi])
        rw [List.getD_eq_getElem _ _ (by omega)]
        rw [← hb]
        exact (List.Forall₂.length_eq (q2 _ (List.getElem_mem _)).1).symm)
    refine ⟨ys, m'', .step xs m o os x _ ys m'' hT ?_ h3, by simp at h4 ⊢; omega, h5⟩
    rw [hT] at h1
    exact h1

/-- **C39** (averaging fixed horizon control, histories). On every history the algorithm succeeds in all slots and every
decision lies in the decision space. -/
theorem C39_afhc_history (S : Num.Solver) (hS : Sound S) (bounds : List ℚ) (w : Nat) (hit : Int → Config ℚ → ECost)
    (os : List (Online (SSCO ℚ C D))) (h : Shown bounds w hit os) :
    ∃ ys m, Run (fun p : SSCO ℚ C D => p.tEnd) (afhc S) [] none os ys m ∧ ys.length = os.length ∧
      ∀ x ∈ ys, InBox bounds x := by
  obtain ⟨ys, m, h1, h2, h3⟩ := run_afhc S hS bounds w hit os [] none (by simpa using h.slot) h.usable (by simp) (by simp)
  exact ⟨ys, m, h1, by simpa using h2, h3⟩

/-! ## The prediction window is not used -/

theorem objective_congr (o o' : Online (SSCO ℚ C D)) (hw : o.w = o'.w) (hd : o.p.d = o'.p.d) (hT : o.p.tEnd = o'.p.tEnd)
    (hb : o.p.bounds = o'.p.bounds) (hβ : o.p.switchingCost = o'.p.switchingCost)
    (hf : ∀ s x, 1 ≤ s → s ≤ o.p.tEnd → o.p.hittingCost.callPredictive s x = o'.p.hittingCost.callPredictive s x)
    (tS : Int) (prev : Config ℚ) : objective o tS prev = objective o' tS prev := by
  funext raw
  have key : ∀ xs, (o.p.reset (tS - 1)).toProb.objectiveWithDefault xs prev =
      (o'.p.reset (tS - 1)).toProb.objectiveWithDefault xs prev := by
    intro xs
    have hslot : ∀ t ∈ timeRange 1 (o.p.tEnd - (tS - 1)), ∀ y x, (o.p.reset (tS - 1)).toProb.slotCost 1 false t y x =
        (o'.p.reset (tS - 1)).toProb.slotCost 1 false t y x := by
      intro t ht y x
      simp only [timeRange, List.mem_map, List.mem_range] at ht
      obtain ⟨i, hi, rfl⟩ := ht
      have hmean : (o.p.reset (tS - 1)).hittingCost.callMean (1 + (i : Int)) x =
          (o'.p.reset (tS - 1)).hittingCost.callMean (1 + (i : Int)) x := by
        apply callMean_of_predictive
        show (o.p.hittingCost.reset (tS - 1)).callPredictive (1 + (i : Int)) x =
          (o'.p.hittingCost.reset (tS - 1)).callPredictive (1 + (i : Int)) x
        by_cases h1 : 1 + (i : Int) + (tS - 1) < 1
        · rw [C08_reset_before _ _ _ h1 (by omega), C08_reset_before _ _ _ h1 (by omega)]
        · rw [C08_reset_slot_any _ _ _ (by omega) (by omega), C08_reset_slot_any _ _ _ (by omega) (by omega),
            hf _ x (by omega) (by omega)]
      simp only [Prob.slotCost, Prob.hitOrNone, SSCO.toProb, CostFn.callMeanWithinBounds, hmean]
      simp only [SSCO.reset, hT, hb, hβ]
      congr!
    simp only [Prob.objectiveWithDefault, Prob.objectiveWithDefault', sumOverSchedule]
    have e : (o.p.reset (tS - 1)).toProb.tEnd = o.p.tEnd - (tS - 1) := rfl
    have e' : (o'.p.reset (tS - 1)).toProb.tEnd = o.p.tEnd - (tS - 1) := by rw [hT]; rfl
    rw [e, e']
    congr 1
    have : ∀ l : List Int, (∀ t ∈ l, t ∈ timeRange 1 (o.p.tEnd - (tS - 1))) →
        l.mapM (fun t => (o.p.reset (tS - 1)).toProb.slotCost 1 false t ((xs.get (t - 1)).getD prev) ((xs.get t).getD prev)) =
        l.mapM (fun t => (o'.p.reset (tS - 1)).toProb.slotCost 1 false t ((xs.get (t - 1)).getD prev)
          ((xs.get t).getD prev)) := by
      intro l
      induction l with
      | nil => intro _; rfl
      | cons t l ih =>
        intro h
        rw [List.mapM_cons, List.mapM_cons, hslot t (h t (by simp)), ih fun t ht => h t (by simp [ht])]
    exact this _ fun _ h => h
  simp only [objective, hw, hd, key]

theorem next_congr (S : Num.Solver) (k : Int) (o o' : Online (SSCO ℚ C D)) (hw : o.w = o'.w) (hd : o.p.d = o'.p.d)
    (hT : o.p.tEnd = o'.p.tEnd) (hb : o.p.bounds = o'.p.bounds) (hβ : o.p.switchingCost = o'.p.switchingCost)
    (hf : ∀ s x, 1 ≤ s → s ≤ o.p.tEnd → o.p.hittingCost.callPredictive s x = o'.p.hittingCost.callPredictive s x)
    (t : Int) (prev : Config ℚ) : next S k o t prev = next S k o' t prev := by
  have hbox : box o = box o' := by simp only [box, hw, hd, hb]
  simp only [next, hw, hd, hbox, objective_congr o o' hw hd hT hb hβ hf]

/-- **C39** (window). Neither algorithm reads predictions: two instances which agree in the slots up to the current one
lead to the same decision and the same memory, whatever they predict and whatever the optimiser does. -/
theorem C39_predictions_ignored (S : Num.Solver) (o o' : Online (SSCO ℚ C D)) (hw : o.w = o'.w) (hd : o.p.d = o'.p.d)
    (hT : o.p.tEnd = o'.p.tEnd) (hb : o.p.bounds = o'.p.bounds) (hβ : o.p.switchingCost = o'.p.switchingCost)
    (hf : ∀ s x, 1 ≤ s → s ≤ o.p.tEnd → o.p.hittingCost.callPredictive s x = o'.p.hittingCost.callPredictive s x)
    (t : Int) (xs : Schedule ℚ) :
    (rhc S).call o t xs () = (rhc S).call o' t xs () ∧
    ∀ mem, (afhc S).call o t xs mem = (afhc S).call o' t xs mem := by
  constructor
  · simp only [rhc, hw, hd, next_congr S _ o o' hw hd hT hb hβ hf]
  · intro mem
    have : ∀ (ks : List Int) (x : Config ℚ) (pm : Memory), plans S o t mem ks x pm = plans S o' t mem ks x pm := by
      intro ks
      induction ks with
      | nil => intros; rfl
      | cons k ks ih => intro x pm; simp only [plans, next_congr S _ o o' hw hd hT hb hβ hf, ih]
    simp only [afhc, hw, hd, this]

end

/-! ## Examples -/

/-- Hitting costs `3/4 * |1 - x|` in all slots, one dimension. -/
def exHit (_ : Int) (x : Config ℚ) : ECost := ((3 / 4 * |1 - x.headD 0| : ℚ) : ECost)

/-- Slot `t` of an instance with these costs, bound 1 and switching cost 1. -/
def ex (t w : Nat) : Online (SSCO ℚ Unit Unit) where
  p :=
    { d := 1, tEnd := t, bounds := [1], switchingCost := [1]
      hittingCost := CostFn.new 1 (SingleCostFn.certain fun t x => .ok (Cost.raw (exHit t x))) }
  w := w

theorem ex_usable (t w : Nat) : Usable (ex t w).p exHit where
  dim := rfl
  costs := rfl
  bound := by
    intro u hu
    simp only [ex, List.mem_singleton] at hu
    subst hu
    exact ⟨by norm_num, 100, by norm_num⟩
  certain := by
    intro s hs _ x r h
    rw [ex, CostFn.callPredictive_certain _ _ hs] at h
    simp only [Except.map, Except.ok.injEq] at h
    rw [← h]; rfl
  defined := by
    intro s hs _ x _
    exact ⟨.success (), by rw [ex, CostFn.callMean_certain _ _ hs]; rfl⟩

/-- Non-vacuity: histories of every length, with every window. -/
theorem ex_shown (n w : Nat) : Shown [1] w exHit ((List.range n).map fun i : Nat => ex (i + 1) w) where
  slot := by
    intro i o h
    simp only [List.getElem?_map, Option.map_eq_some_iff] at h
    obtain ⟨j, h1, rfl⟩ := h
    have : j = i := by
      have := List.getElem?_eq_some_iff.1 h1
      obtain ⟨_, h3⟩ := this
      simpa using h3.symm
    subst this
    simp [ex]
  usable := by
    intro o ho
    simp only [List.mem_map] at ho
    obtain ⟨i, _, rfl⟩ := ho
    exact ⟨ex_usable _ _, rfl, rfl⟩

example : ∃ S : Num.Solver, Sound S ∧ ∀ n w : Nat, ∃ ys, Run (fun p : SSCO ℚ Unit Unit => p.tEnd) (rhc S) [] none
    ((List.range n).map fun i : Nat => ex (i + 1) w) ys none := by
  obtain ⟨S, hS, _⟩ := exists_exact
  refine ⟨S, hS.toSound, fun n w => ?_⟩
  obtain ⟨ys, h, _⟩ := C39_rhc_history S hS.toSound _ w _ _ (ex_shown n w)
  exact ⟨ys, h⟩

/-- **C39** is false of the code as far as the window is concerned: with a window of one slot and any exact optimiser,
receding horizon control stays at zero in the first slot, although every plan for the current and the predicted slot
which begins that way costs at least 3/2, and there is a plan of cost 1. -/
theorem C39_window_counterexample (S : Num.Solver) (hS : Exact S) :
    (rhc S).call (ex 1 1) 1 [] () = .ok ([0], none) ∧
    (∀ y : ℚ, 0 ≤ y → y ≤ 1 → ((3 / 2 : ℚ) : ECost) ≤ planCost exHit [1] 1 [0] [[0], [y]]) ∧
    planCost exHit [1] 1 [0] [[1], [1]] = ((1 : ℚ) : ECost) := by
  have hone : ∀ y : ℚ, 0 ≤ y → y ≤ 1 → planCost exHit [1] 1 [0] [[y]] = ((3 / 4 + y / 4 : ℚ) : ECost) := by
    intro y h0 h1
    simp only [planCost, totalCost, fromSlotOne, exHit, upCost, List.zipWith3, toQ, Value.toQHom, RingHom.id_apply]
    norm_num
    norm_cast
    rw [abs_of_nonneg (by linarith), max_eq_right h0]
    ring
  refine ⟨?_, ?_, ?_⟩
  · obtain ⟨x, h1, h2, h3⟩ := C39_rhc_step_partial S hS.toSound (ex 1 1) exHit (ex_usable 1 1) (by simp [ex]) [] (by simp) ()
    have h4 := h3 hS [[0]] rfl (by
      intro x hx
      simp only [List.mem_singleton] at hx
      subst hx
      refine ⟨?_, ?_⟩
      · simp [ex, InBox]
      · intro j hj
        simp only [List.mem_singleton] at hj
        subst hj
        exact ⟨0, by simp⟩)
    have hx : ∃ y : ℚ, x = [y] ∧ 0 ≤ y ∧ y ≤ 1 := by
      simp only [ex, InBox] at h2
      cases h2 with
      | cons a b => cases b; exact ⟨_, rfl, a⟩
    obtain ⟨y, rfl, y0, y1⟩ := hx
    have h5 : planCost exHit [1] 1 [0] [[y]] ≤ planCost exHit [1] 1 [0] [[0]] := h4
    rw [hone y y0 y1, hone 0 le_rfl (by norm_num), WithTop.coe_le_coe] at h5
    have : y = 0 := by linarith
    subst this
    exact h1
  · intro y h0 h1
    simp only [planCost, totalCost, fromSlotOne, exHit, upCost, List.zipWith3, toQ, Value.toQHom, RingHom.id_apply]
    norm_num
    norm_cast
    rw [abs_of_nonneg (by linarith), max_eq_right h0]
    linarith
  · simp only [planCost, totalCost, fromSlotOne, exHit, upCost, List.zipWith3, toQ, Value.toQHom, RingHom.id_apply]
    norm_num

/-- Bounds which are not multiples of the precision are left by rounding: with the bound 1/8 a sound optimiser may return
13/100. -/
theorem C39_rounding_counterexample : ∃ (S : Num.Solver) (o : Online (SSCO ℚ Unit Unit)) (x : Config ℚ), Sound S ∧
    o.p.bounds = [1 / 8] ∧ (rhc S).call o 1 [] () = .ok (x, none) ∧ ¬ InBox o.p.bounds x := by
  refine ⟨fun box _ _ _ => ⟨[], box.map Prod.snd, .done⟩, ⟨{ (ex 1 0).p with bounds := [1 / 8] }, 0⟩, [13 / 100], ?_, rfl,
    ?_, ?_⟩
  · refine ⟨?_, by simp, by simp⟩
    intro box _ _ _ h
    unfold InBoxQ
    simp only
    induction box with
    | nil => exact .nil
    | cons b box ih => exact .cons ⟨h b (by simp), le_refl _⟩ (ih fun c hc => h c (by simp [hc]))
  · decide +kernel
  · simp only [InBox]
    intro h
    cases h with
    | cons a b => norm_num at a

end Horizon
end Soco
