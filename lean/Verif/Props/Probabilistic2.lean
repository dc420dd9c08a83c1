import Verif.Props.Probabilistic

/-! # C63: the mass of the maintained density -/

namespace Soco
namespace Probabilistic
open Spec Num Descent

/-! ## The mass is well defined -/

theorem mid {a b : ℚ} (h : a < b) : a < (a + b) / 2 ∧ (a + b) / 2 < b := ⟨by linarith, by linarith⟩

theorem area_zero {p : ℚ → Res ℚ} : ∀ (ps : List (ℚ × ℚ)) (a : ℚ), (∀ x, a < x → p x = .ok 0) → StepFrom p a ps → area a ps = 0
  | [], _, _, _ => rfl
  | (b, h) :: ps, a, hz, hs => by
    obtain ⟨h1, h2, h3⟩ := hs
    have e := h2 _ (mid h1).1 (mid h1).2
    rw [hz _ (mid h1).1] at e
    cases e
    simp only [area, zero_mul, zero_add]
    exact area_zero ps b (fun x hx => hz x (h1.trans hx)) h3

theorem area_unique {p : ℚ → Res ℚ} : ∀ (n : Nat) (ps qs : List (ℚ × ℚ)) (a : ℚ), ps.length + qs.length ≤ n →
    StepFrom p a ps → StepFrom p a qs → area a ps = area a qs := by
  intro n
  induction n with
  | zero =>
    intro ps qs a hn _ _
    have h1 : ps = [] := List.length_eq_zero_iff.1 (by omega)
    have h2 : qs = [] := List.length_eq_zero_iff.1 (by omega)
    rw [h1, h2]
  | succ n ih =>
    intro ps qs a hn h1 h2
    match ps, qs, hn, h1, h2 with
    | [], qs, _, h1, h2 => exact (area_zero qs a h1 h2).symm
    | ps, [], _, h1, h2 => exact area_zero ps a h2 h1
    | (b, h) :: ps, (b', h') :: qs, hn, h1, h2 =>
      obtain ⟨a1, a2, a3⟩ := h1
      obtain ⟨c1, c2, c3⟩ := h2
      have hlt : a < min b b' := lt_min a1 c1
      obtain ⟨m1, m2⟩ := mid hlt
      have e := a2 _ m1 (m2.trans_le (min_le_left _ _))
      rw [c2 _ m1 (m2.trans_le (min_le_right _ _))] at e
      cases e
      simp only [List.length_cons] at hn
      rcases lt_trichotomy b b' with hb | rfl | hb
      · have := ih ps ((b', h) :: qs) b (by simp only [List.length_cons]; omega) a3
          ⟨hb, fun x x1 x2 => c2 x (a1.trans x1) x2, c3⟩
        simp only [area] at this ⊢
        rw [this]; ring
      · simp only [area]
        rw [ih ps qs b (by omega) a3 c3]
      · have := ih ((b, h) :: ps) qs b' (by simp only [List.length_cons]; omega)
          ⟨hb, fun x x1 x2 => a2 x (c1.trans x1) x2, a3⟩ c3
        simp only [area] at this ⊢
        rw [← this]; ring

/-- The mass of a step function does not depend on how it is divided into pieces. -/
theorem HasMass.unique {p : ℚ → Res ℚ} {m n : ℚ} (h1 : HasMass p m) (h2 : HasMass p n) : m = n := by
  obtain ⟨a, ps, z1, s1, rfl⟩ := h1
  obtain ⟨b, qs, z2, s2, rfl⟩ := h2
  rcases lt_trichotomy a b with hb | rfl | hb
  · have := area_unique _ ps ((b, 0) :: qs) a le_rfl s1 ⟨hb, fun x _ x2 => z2 x x2, s2⟩
    simpa [area] using this
  · exact area_unique _ ps qs a le_rfl s1 s2
  · have := area_unique _ ((a, 0) :: ps) qs b le_rfl ⟨hb, fun x _ x2 => z1 x x2, s1⟩ s2
    simpa [area] using this

/-- The initial density is a probability density. -/
theorem C63_initial : HasMass Memory.default.p 1 := by
  refine ⟨0, [(epsilon, 1 / epsilon)], ?_, ⟨by norm_num [epsilon], ?_, ?_⟩, by norm_num [area, epsilon]⟩
  · intro x hx
    exact congrArg _ (if_neg fun h => absurd h.1 (not_le.2 hx))
  · intro x h1 h2
    exact congrArg _ (if_pos ⟨h1.le, h2.le⟩)
  · intro x hx
    exact congrArg _ (if_neg fun h => absurd h.2 (not_le.2 hx))

/-! ## An instance -/

/-- One dimension with decision space `[0, 2]`, switching cost 1 and hitting cost `(x - 1)^2` in all slots. -/
def exQ (t : Int) : SSCO ℚ Unit Unit where
  d := 1
  tEnd := t
  bounds := [2]
  switchingCost := [1]
  hittingCost := CostFn.new 1 (SingleCostFn.certain fun _ x => .ok (Cost.raw (((x.headD 0 - 1) ^ 2 : ℚ) : ECost)))

theorem ex_smooth (T t : Int) (ht : 1 ≤ t) : Smooth (exQ T) t 2 1 (fun x => (x - 1) ^ 2) where
  dim := rfl
  bound := rfl
  pos := by norm_num
  grid := ⟨200, by norm_num⟩
  switching := rfl
  charged := by norm_num
  costs := fun x => ⟨.success (), by rw [exQ, CostFn.callCertain_certain _ _ ht]; rfl⟩

/-- Routines that return something for all functions, with the derivatives of the instance. -/
def exTools : Tools where
  derivative _ x := .ok (some (((2 * (x - 1) : ℚ) : WithTop ℚ) : Slack))
  second _ _ := .ok (some 2)
  integrate _ _ _ _ := .ok 0

theorem exTools_total : exTools.Total where
  derivative := fun _ _ x => ⟨_, rfl⟩
  second := fun _ _ x => ⟨_, rfl⟩
  integrate := fun _ _ _ _ _ => ⟨_, rfl⟩

theorem someRoot_brackets : Brackets someRoot := by
  intro a b f x hab h
  cases h
  exact ⟨le_rfl, hab⟩

/-- Non-vacuity of `C62_probabilistic` and `C62_history`: histories of every length. -/
example : ∃ S : Solver, ∀ n : Nat, ∃ ys k, Run (fun p : SSCO ℚ Unit Unit => p.tEnd)
    (probabilistic S someRoot exTools .empty) [] none ((List.range n).map fun i : Nat => ⟨exQ (i + 1), 0⟩) ys k ∧
      ys.length = n := by
  obtain ⟨S, h1, -⟩ := exists_exact
  refine ⟨S, fun n => ?_⟩
  obtain ⟨ys, k, h, h2, -⟩ := C62_history (C := Unit) (D := Unit) S h1.toSound someRoot someRoot_answers someRoot_brackets exTools
    exTools_total .empty 2 1 (fun _ x => (x - 1) ^ 2) ((List.range n).map fun i : Nat => ⟨exQ (i + 1), 0⟩) (by
      intro i o ho
      rw [List.getElem?_map] at ho
      have hi : i < n := by
        by_contra hc
        rw [List.getElem?_eq_none (by simpa using hc)] at ho
        cases ho
      rw [List.getElem?_range hi] at ho
      cases ho
      exact ⟨rfl, rfl, ex_smooth _ _ (by omega)⟩)
  exact ⟨ys, k, h, by simpa using h2⟩

/-- **C63 is false of the code.** With hitting cost `(x - 1)^2` on `[0, 2]`, switching cost 1, and routines that are exact on
this cost (its derivatives are `2 (x - 1)` and `2`) and on the initial density (which has no mass left of 0 nor right of 1), the
density after the first slot has mass 2. The minimiser 1 is taken for the right bound, rightly. The left bound 0 is accepted as
a root since the tolerance is 10. -/
theorem C63_mass_counterexample (S : Solver) (hS : Exact S) (B : Brent) (T : Tools) (options : Breakpoints)
    (hd : ∀ x, T.derivative (cost (exQ 1) 1) x = .ok (some (((2 * (x - 1) : ℚ) : WithTop ℚ) : Slack)))
    (hs : ∀ x, T.second (cost (exQ 1) 1) x = .ok (some 2))
    (hi0 : ∀ bp, T.integrate bp ⊥ (.of 0) Memory.default.p = .ok 0)
    (hi1 : ∀ bp, T.integrate bp (.of 1) ⊤ Memory.default.p = .ok 0)
    (hi2 : ∀ bp a b f, Defined f → ∃ v, T.integrate bp a b f = .ok v) :
    ∃ x m, (probabilistic S B T options).next ⟨exQ 1, 0⟩ [] none = .ok ([x], some m) ∧ HasMass m.p 2 ∧
      ¬ HasMass m.p 1 := by
  have h := ex_smooth 1 1 le_rfl
  obtain ⟨xm, v, e, m1, m2, m3, m4⟩ := minimizer_ok hS.toSound h
  have hx : xm = 1 := by
    have := m4 hS 1 (by norm_num) (by norm_num) ⟨100, by norm_num⟩
    have : xm - 1 = 0 := by
      have : (xm - 1) ^ 2 ≤ 0 := by simpa using this
      exact pow_eq_zero_iff (by norm_num) |>.1 (le_antisymm this (sq_nonneg _))
    linarith
  subst hx
  have r0 : applyPrecision (2 * (0 - 1)) = -2 := by rw [(onGrid_iff (2 * (0 - 1))).1 ⟨-200, by norm_num⟩]; norm_num
  have r1 : applyPrecision (2 * (1 - 1)) = 0 := by rw [(onGrid_iff (2 * (1 - 1))).1 ⟨0, by norm_num⟩]; norm_num
  have r2 : applyPrecision 2 = 2 := (onGrid_iff 2).1 ⟨200, by norm_num⟩
  have d0 : derivative T (cost (exQ 1) 1) 0 = .ok (((-2 : ℚ) : WithTop ℚ) : Slack) := by
    simp only [derivative, cost_eq h, bind, Except.bind, hd]
    show Except.ok (((applyPrecision (2 * (0 - 1)) : ℚ) : WithTop ℚ) : Slack) = _
    rw [r0]
  have d1 : derivative T (cost (exQ 1) 1) 1 = .ok (((0 : ℚ) : WithTop ℚ) : Slack) := by
    simp only [derivative, cost_eq h, bind, Except.bind, hd]
    show Except.ok (((applyPrecision (2 * (1 - 1)) : ℚ) : WithTop ℚ) : Slack) = _
    rw [r1]
  have s2 : ∀ x, secondDerivative T (cost (exQ 1) 1) x = .ok 2 := by
    intro x
    simp only [secondDerivative, cost_eq h, bind, Except.bind, hs]
    show Except.ok (applyPrecision 2) = _
    rw [r2]
  have small : ∀ q : ℚ, |q| < 10 → Slack.abs (((q : ℚ) : WithTop ℚ) : Slack) < ((rootPrecision : ℚ) : ECost) := by
    intro q hq
    show ((|q| : ℚ) : ECost) < _
    rw [WithTop.coe_lt_coe]
    refine hq.trans_le ?_
    norm_num [rootPrecision, precision]
  have hdef : Defined Memory.default.p := fun x => ⟨_, rfl⟩
  obtain ⟨bp, hbp⟩ : ∃ bp, bp = options.add Memory.default.breakpoints := ⟨_, rfl⟩
  have gapR : ∀ x, ∃ v, rightGap T (exQ 1) 1 bp Memory.default.p x = .ok v := by
    intro x
    obtain ⟨i, hi⟩ := hi2 bp (.of x) ⊤ _ hdef
    simp only [rightGap, derivative, cost_eq h, hd, hi, h.switching, idx, List.getElem?_cons_zero, bind, Except.bind]
    exact ⟨_, rfl⟩
  have gapL : ∀ x, ∃ v, leftGap T (exQ 1) 1 bp Memory.default.p x = .ok v := by
    intro x
    obtain ⟨i, hi⟩ := hi2 bp ⊥ (.of x) _ hdef
    simp only [leftGap, derivative, cost_eq h, hd, hi, h.switching, idx, List.getElem?_cons_zero, bind, Except.bind]
    exact ⟨_, rfl⟩
  have hr : findRoot B 1 2 (rightGap T (exQ 1) 1 bp Memory.default.p) = .ok 1 := by
    have e1 : rightGap T (exQ 1) 1 bp Memory.default.p 1 = .ok (((0 : ℚ) : WithTop ℚ) : Slack) := by
      simp only [rightGap, d1, hi1, h.switching, idx, List.getElem?_cons_zero, bind, Except.bind]
      show Except.ok (((0 - 2 * 1 * 0 : ℚ) : WithTop ℚ) : Slack) = _
      norm_num
    obtain ⟨v2, e2⟩ := gapR 2
    unfold findRoot
    rw [if_neg (by norm_num [precision])]
    simp only [e1, e2, bind, Except.bind]
    rw [if_pos (small 0 (by norm_num))]
  have hl : findRoot B 0 1 (leftGap T (exQ 1) 1 bp Memory.default.p) = .ok 0 := by
    have e1 : leftGap T (exQ 1) 1 bp Memory.default.p 0 = .ok (((2 : ℚ) : WithTop ℚ) : Slack) := by
      simp only [leftGap, d0, hi0, h.switching, idx, List.getElem?_cons_zero, bind, Except.bind]
      show Except.ok (((2 * 1 * 0 - -2 : ℚ) : WithTop ℚ) : Slack) = _
      norm_num
    obtain ⟨v2, e2⟩ := gapL 1
    unfold findRoot
    rw [if_neg (by norm_num [precision])]
    simp only [e1, e2, bind, Except.bind]
    rw [if_pos (small 2 (by norm_num))]
  have hden : ∀ x, 0 ≤ x → x ≤ 1 → density T (exQ 1) 1 Memory.default.p 0 1 x =
      .ok ((if 0 ≤ x ∧ x ≤ epsilon then 1 / epsilon else 0) + 1) := by
    intro x x0 x1
    simp only [density, if_pos (And.intro x0 x1), Memory.default, s2, h.switching, idx, List.getElem?_cons_zero, bind, Except.bind,
      if_neg one_ne_zero]
    norm_num
  obtain ⟨ex, hex⟩ := hi2 bp (.of 0) (.of 1) (fun x => do
      let v ← density T (exQ 1) 1 Memory.default.p 0 1 x
      .ok (x * v)) (by
    intro x
    by_cases hx : 0 ≤ x ∧ x ≤ 1
    · exact ⟨x * ((if 0 ≤ x ∧ x ≤ epsilon then 1 / epsilon else 0) + 1), by simp only [hden x hx.1 hx.2, bind, Except.bind]⟩
    · exact ⟨x * 0, by simp only [density, if_neg hx, bind, Except.bind]⟩)
  refine ⟨if ex < 0 ∨ ex > 1 then 1 else ex, ⟨density T (exQ 1) 1 Memory.default.p 0 1, push (push Memory.default.breakpoints 0) 1⟩,
    ?_, ?_⟩
  · simp only [bind, Except.bind] at hex
    have hb : (exQ 1).bounds = [2] := rfl
    have hdim : (exQ 1).d = 1 := rfl
    have ht : Schedule.tEnd ([] : Schedule ℚ) + 1 = 1 := rfl
    simp only [OnlineAlgorithm.next, probabilistic, hdim, hb, assertR, decide_true, if_true, idx, List.getElem?_cons_zero, bind,
      Except.bind, Option.getD_none, ht, e, ← hbp, hr, hl, hex]
  · suffices hm : HasMass (density T (exQ 1) 1 Memory.default.p 0 1) 2 from
      ⟨hm, fun h1 => absurd (HasMass.unique hm h1) (by norm_num)⟩
    refine ⟨0, [(epsilon, 1 / epsilon + 1), (1, 1)], ?_, ⟨by norm_num [epsilon], ?_, by norm_num [epsilon], ?_, ?_⟩,
      by norm_num [area, epsilon]⟩
    · intro x hx
      exact if_neg fun hc => absurd hc.1 (not_le.2 hx)
    · intro x x0 x1
      show density T (exQ 1) 1 Memory.default.p 0 1 x = _
      rw [hden x x0.le (x1.le.trans (by norm_num [epsilon])), if_pos ⟨x0.le, x1.le⟩]
    · intro x x0 x1
      have : (0 : ℚ) ≤ x := le_trans (by norm_num [epsilon]) x0.le
      show density T (exQ 1) 1 Memory.default.p 0 1 x = _
      rw [hden x this x1.le, if_neg fun hc => absurd hc.2 (not_le.2 x0), zero_add]
    · intro x hx
      exact if_neg fun hc => absurd hc.2 (not_le.2 hx)

/-- Non-vacuity of `C63_mass_counterexample`. -/
example : ∃ S : Solver, ∃ x m, (probabilistic S someRoot exTools .empty).next ⟨exQ 1, 0⟩ [] none = .ok ([x], some m) ∧
    HasMass m.p 2 := by
  obtain ⟨S, h1, -⟩ := exists_exact
  obtain ⟨x, m, h, h', -⟩ := C63_mass_counterexample S h1 someRoot exTools .empty (fun _ => rfl) (fun _ => rfl) (fun _ => rfl) (fun _ => rfl)
    (fun _ _ _ _ _ => ⟨_, rfl⟩)
  exact ⟨S, x, m, h, h'⟩

/-- Non-vacuity of `C63_left_bound_partial`: the instance above, its minimiser, and the initial density. -/
example : ∀ xl, findRoot someRoot 0 1 (leftGap exTools (exQ 1) 1 .empty Memory.default.p) = .ok xl → xl = 0 ∨ xl = 1 := by
  intro xl h
  refine C63_left_bound_partial someRoot exTools (exQ 1) 1 1 (by norm_num) rfl _ _ 1 ?_ ?_ (by norm_num) xl h
  · intro x s x0 x1 hs
    simp only [derivative, cost_eq (ex_smooth 1 1 le_rfl), bind, Except.bind, exTools] at hs
    cases hs
    show (((applyPrecision (2 * (x - 1)) : ℚ) : WithTop ℚ) : Slack) ≤ (((0 : ℚ) : WithTop ℚ) : Slack)
    rw [WithBot.coe_le_coe, WithTop.coe_le_coe]
    have := (C48_apply_precision (2 * (x - 1)) 0).2.1 (by linarith)
    rwa [(onGrid_iff 0).1 ⟨0, by norm_num⟩] at this
  · intro x i hi
    cases hi
    exact le_rfl

end Probabilistic
end Soco
