import Verif.Props.Probabilistic2
import Verif.Spec.Schedule
import Mathlib.Algebra.Order.Archimedean.Basic

/-! # C83: the cost ratio of the probabilistic algorithm -/

namespace Soco
namespace Probabilistic
open Spec Num Descent

/-- One dimension with decision space `[0, 1]`, switching cost 1 and hitting cost `1 - x` in all slots. -/
def slope (t : Int) : SSCO ℚ Unit Unit where
  d := 1
  tEnd := t
  bounds := [1]
  switchingCost := [1]
  hittingCost := CostFn.new 1 (SingleCostFn.certain fun _ x => .ok (Cost.raw ((1 - x.headD 0 : ℚ) : ECost)))

theorem slope_smooth (T t : Int) (ht : 1 ≤ t) : Smooth (slope T) t 1 1 (fun x => 1 - x) where
  dim := rfl
  bound := rfl
  pos := by norm_num
  grid := ⟨100, by norm_num⟩
  switching := rfl
  charged := by norm_num
  costs := fun x => ⟨.success (), by rw [slope, CostFn.callCertain_certain _ _ ht]; rfl⟩

/-- The external routines are exact on the function `1 - x`, on the initial density, and on the product of the initial density with
its argument, whose integral from 0 to 1 is half of the width of the density. -/
structure ExactOnSlope (T : Tools) : Prop where
  derivative : ∀ f : ℚ → Res ECost, (∀ x, f x = .ok ((1 - x : ℚ) : ECost)) →
    ∀ x, T.derivative f x = .ok (some (((-1 : ℚ) : WithTop ℚ) : Slack))
  second : ∀ f : ℚ → Res ECost, (∀ x, f x = .ok ((1 - x : ℚ) : ECost)) → ∀ x, T.second f x = .ok (some 0)
  left : ∀ bp, T.integrate bp ⊥ (.of 0) Memory.default.p = .ok 0
  all : ∀ bp, T.integrate bp ⊥ (.of 1) Memory.default.p = .ok 1
  mean : ∀ bp, T.integrate bp (.of 0) (.of 1) (fun x => do
    let v ← Memory.default.p x
    .ok (x * v)) = .ok (epsilon / 2)

/-- In every slot the density stays what it is in the beginning, and the mean of the density is chosen. -/
theorem slope_step (S : Solver) (hS : Exact S) (B : Brent) (T : Tools) (hT : ExactOnSlope T) (options : Breakpoints) (e t : Int)
    (ht : 1 ≤ t) (xs : Schedule ℚ) (m : Memory) (hm : m.p = Memory.default.p) :
    ∃ m', (probabilistic S B T options).call ⟨slope e, 0⟩ t xs m = .ok ([epsilon / 2], some m') ∧ m'.p = Memory.default.p := by
  have h := slope_smooth e t ht
  obtain ⟨xm, v, e0, m1, m2, m3, m4⟩ := minimizer_ok hS.toSound h
  have hx : xm = 1 := by
    have := m4 hS 1 (by norm_num) (by norm_num) ⟨100, by norm_num⟩
    linarith
  subst hx
  have hc := cost_eq h
  have r1 : applyPrecision (-1) = -1 := (onGrid_iff (-1)).1 ⟨-100, by norm_num⟩
  have r0 : applyPrecision 0 = 0 := (onGrid_iff 0).1 ⟨0, by norm_num⟩
  have d0 : ∀ x, derivative T (cost (slope e) t) x = .ok (((-1 : ℚ) : WithTop ℚ) : Slack) := by
    intro x
    simp only [derivative, hc, bind, Except.bind, hT.derivative _ hc]
    show Except.ok (((applyPrecision (-1) : ℚ) : WithTop ℚ) : Slack) = _
    rw [r1]
  have s2 : ∀ x, secondDerivative T (cost (slope e) t) x = .ok 0 := by
    intro x
    simp only [secondDerivative, hc, bind, Except.bind, hT.second _ hc]
    show Except.ok (applyPrecision 0) = _
    rw [r0]
  obtain ⟨bp, hbp⟩ : ∃ bp, bp = options.add m.breakpoints := ⟨_, rfl⟩
  have hr : findRoot B 1 1 (rightGap T (slope e) t bp m.p) = .ok 1 := by
    unfold findRoot
    rw [if_pos (by norm_num [precision])]
  have hl : findRoot B 0 1 (leftGap T (slope e) t bp m.p) = .ok 0 := by
    have e1 : leftGap T (slope e) t bp m.p 0 = .ok (((1 : ℚ) : WithTop ℚ) : Slack) := by
      simp only [leftGap, d0, hm, hT.left, h.switching, idx, List.getElem?_cons_zero, bind, Except.bind]
      show Except.ok (((2 * 1 * 0 - -1 : ℚ) : WithTop ℚ) : Slack) = _
      norm_num
    have e2 : ∃ v, leftGap T (slope e) t bp m.p 1 = .ok v := by
      simp only [leftGap, d0, hm, hT.all, h.switching, idx, List.getElem?_cons_zero, bind, Except.bind]
      exact ⟨_, rfl⟩
    obtain ⟨v2, e2⟩ := e2
    unfold findRoot
    rw [if_neg (by norm_num [precision])]
    simp only [e1, e2, bind, Except.bind]
    rw [if_pos]
    show ((|1| : ℚ) : ECost) < _
    rw [WithTop.coe_lt_coe]
    norm_num [rootPrecision, precision]
  have hden : density T (slope e) t m.p 0 1 = Memory.default.p := by
    funext x
    by_cases hx : 0 ≤ x ∧ x ≤ 1
    · simp only [density, if_pos hx, hm, Memory.default, s2, h.switching, idx, List.getElem?_cons_zero, bind, Except.bind,
        if_neg one_ne_zero]
      norm_num
    · simp only [density, if_neg hx, Memory.default]
      rw [if_neg]
      exact fun hc => hx ⟨hc.1, hc.2.trans (by norm_num [epsilon])⟩
  refine ⟨⟨density T (slope e) t m.p 0 1, push (push m.breakpoints 0) 1⟩, ?_, hden⟩
  have hb : (slope e).bounds = [1] := rfl
  have hdim : (slope e).d = 1 := rfl
  have hmean := hT.mean bp
  simp only [bind, Except.bind] at hmean
  simp only [probabilistic, hdim, hb, assertR, decide_true, if_true, idx, List.getElem?_cons_zero, bind,
    Except.bind, e0, ← hbp, hr, hl, hden, hmean]
  rw [if_neg (by norm_num [epsilon])]

/-- The history in which the instance is shown slot by slot. -/
def slopeHistory (n : Nat) : List (Online (SSCO ℚ Unit Unit)) := (List.range n).map fun i : Nat => ⟨slope (i + 1), 0⟩

theorem slope_run (S : Solver) (hS : Exact S) (B : Brent) (T : Tools) (hT : ExactOnSlope T) (options : Breakpoints) :
    ∀ (n k : Nat) (m : Option Memory), (∀ m' ∈ m, m'.p = Memory.default.p) →
      ∃ m', Run (fun p : SSCO ℚ Unit Unit => p.tEnd) (probabilistic S B T options) (List.replicate k [epsilon / 2]) m
        ((List.range' k n).map fun i : Nat => ⟨slope (i + 1), 0⟩) (List.replicate (k + n) [epsilon / 2]) m' := by
  intro n
  induction n with
  | zero => intro k m _; exact ⟨m, .nil _ _⟩
  | succ n ih =>
    intro k m hm
    have hm0 : (m.getD ((probabilistic (C := Unit) (D := Unit) S B T options).default ⟨slope (k + 1), 0⟩)).p = Memory.default.p := by
      cases m with
      | none => rfl
      | some m => exact hm m rfl
    obtain ⟨m1, h1, h2⟩ := slope_step S hS B T hT options (k + 1) (k + 1) (by omega) (List.replicate k [epsilon / 2]) _ hm0
    obtain ⟨m2, h3⟩ := ih (k + 1) (some m1) (by
      intro m' h'
      cases h'
      exact h2)
    rw [List.range'_succ, List.map_cons]
    refine ⟨m2, .step _ _ _ _ [epsilon / 2] (some m1) _ _ (by simp [slope]) (by simpa using h1) ?_⟩
    rw [List.replicate_succ'] at h3
    rwa [show k + (n + 1) = k + 1 + n by omega]

theorem total_stay (c : ℚ) : ∀ (n : Nat) (t : Int), totalCost (fun _ x => ((1 - x.headD 0 : ℚ) : ECost)) (upCost [1]) 1 t [c]
    (List.replicate n ([c] : Config ℚ)) = ((n * (1 - c) : ℚ) : ECost)
  | 0, _ => by simp [totalCost]
  | n + 1, t => by
    rw [List.replicate_succ, totalCost, total_stay c n (t + 1)]
    have : upCost [1] [c] [c] = 0 := by simp [upCost, List.zipWith3]
    rw [this]
    simp only [List.headD_cons]
    rw [← WithTop.coe_add, ← WithTop.coe_add]
    congr 1
    push_cast
    ring

/-- **C83 is false of the code.** With hitting cost `1 - x` on `[0, 1]` and switching cost 1 in all slots, and with routines that are exact on
this cost and on the initial density, the probabilistic algorithm stays at 0.000005 forever and pays almost 1 in every slot, while
moving to 1 in the first slot costs 1 in total. The densities change by the second derivative of the hitting costs, which is 0; the
left bound, which should follow the mass as it moves to the right, is 0 since the tolerance of the root finder is 10. So the
algorithm is not competitive, with any ratio. -/
theorem C83_ratio_counterexample (S : Solver) (hS : Exact S) (B : Brent) (T : Tools) (hT : ExactOnSlope T) (options : Breakpoints)
    (n : Nat) :
    (∃ m, Run (fun p : SSCO ℚ Unit Unit => p.tEnd) (probabilistic S B T options) [] none (slopeHistory (n + 1))
      (List.replicate (n + 1) [1 / 200000]) m) ∧
    totalCost (fun _ x => ((1 - x.headD 0 : ℚ) : ECost)) (upCost [1]) 1 1 [0] (List.replicate (n + 1) ([1 / 200000] : Config ℚ)) =
      ((1 / 200000 + (n + 1) * (1 - 1 / 200000) : ℚ) : ECost) ∧
    totalCost (fun _ x => ((1 - x.headD 0 : ℚ) : ECost)) (upCost [1]) 1 1 [0] (List.replicate (n + 1) ([1] : Config ℚ)) = ((1 : ℚ) : ECost) := by
  refine ⟨?_, ?_, ?_⟩
  · obtain ⟨m, h⟩ := slope_run S hS B T hT options (n + 1) 0 none (by simp)
    rw [show epsilon / 2 = 1 / 200000 by norm_num [epsilon], Nat.zero_add, ← List.range_eq_range'] at h
    exact ⟨m, h⟩
  · rw [List.replicate_succ, totalCost, total_stay]
    rw [← WithTop.coe_add, ← WithTop.coe_add]
    congr 1
    simp [upCost, List.zipWith3, toQ]
    ring
  · rw [List.replicate_succ, totalCost, total_stay]
    rw [← WithTop.coe_add, ← WithTop.coe_add]
    congr 1
    simp [upCost, List.zipWith3, toQ]

/-- Routines that are exact on the instance. -/
def slopeTools : Tools where
  derivative _ _ := .ok (some (((-1 : ℚ) : WithTop ℚ) : Slack))
  second _ _ := .ok (some 0)
  integrate _ a b _ := if a = ⊥ then (if b = .of 0 then .ok 0 else .ok 1) else .ok (epsilon / 2)

theorem slopeTools_exact : ExactOnSlope slopeTools where
  derivative := fun _ _ _ => rfl
  second := fun _ _ _ => rfl
  left := fun _ => rfl
  all := fun _ => rfl
  mean := fun _ => rfl

/-- Non-vacuity of `C83_ratio_counterexample`: for every ratio `r` there is a history on which the cost is more than `r` times what another
schedule costs. -/
example : ∃ S : Solver, ∀ r : ℚ, ∃ (n : Nat) (ys : Schedule ℚ) (m : Option Memory) (c : ℚ),
    Run (fun p : SSCO ℚ Unit Unit => p.tEnd) (probabilistic S someRoot slopeTools .empty) [] none (slopeHistory n) ys m ∧
    totalCost (fun _ x => ((1 - x.headD 0 : ℚ) : ECost)) (upCost [1]) 1 1 [0] ys = (c : ECost) ∧ r * 1 < c ∧
    totalCost (fun _ x => ((1 - x.headD 0 : ℚ) : ECost)) (upCost [1]) 1 1 [0] (List.replicate n ([1] : Config ℚ)) = ((1 : ℚ) : ECost) := by
  obtain ⟨S, h1, -⟩ := exists_exact
  refine ⟨S, fun r => ?_⟩
  obtain ⟨n, hn⟩ := exists_nat_gt (2 * r)
  obtain ⟨⟨m, a⟩, b, c⟩ := C83_ratio_counterexample S h1 someRoot slopeTools slopeTools_exact .empty n
  refine ⟨n + 1, _, m, _, a, b, ?_, c⟩
  have : (0 : ℚ) ≤ n := n.cast_nonneg
  linarith

/-! ## Costs that are least at 0 -/

section
variable {C D : Type} [OutSuccess C] [OutFailure D]

/-- Integration ignores single points: what vanishes behind 0 has no mass there. The initial density has mass 1. -/
structure IgnoresPoints (T : Tools) : Prop where
  point : ∀ bp p, (∀ x, 0 < x → p x = .ok 0) → T.integrate bp (.of 0) ⊤ p = .ok 0
  initial : ∀ bp, T.integrate bp (.of 0) ⊤ Memory.default.p = .ok 1

/-- The hitting cost in slot `t` is the finite number `f x`, least at 0 and only there; its slope at 0 is computed as `s`, which is
less than the tolerance of 10, and so is the switching cost doubled. -/
structure LeastAtZero (T : Tools) (p : SSCO ℚ C D) (t : Int) (u β : ℚ) (f : ℚ → ℚ) : Prop where
  smooth : Smooth p t u β f
  least : ∀ x, 0 < x → x ≤ u → f 0 < f x
  slope : ∃ s : ℚ, derivative T (cost p t) 0 = .ok ((s : WithTop ℚ) : Slack) ∧ 0 ≤ s ∧ s < 10
  charged : 0 < β ∧ β < 5

theorem zero_step (S : Solver) (hS : Exact S) (B : Brent) (T : Tools) (hT : T.Total) (hI : IgnoresPoints T) (options : Breakpoints)
    (o : Online (SSCO ℚ C D)) (hw : o.w = 0) (t : Int) (u β : ℚ) (f : ℚ → ℚ) (h : LeastAtZero T o.p t u β f) (xs : Schedule ℚ)
    (m : Memory) (hm : m.p = Memory.default.p ∨ Defined m.p ∧ ∀ x, 0 < x → m.p x = .ok 0) :
    ∃ m', (probabilistic S B T options).call o t xs m = .ok ([0], some m') ∧ Defined m'.p ∧ ∀ x, 0 < x → m'.p x = .ok 0 := by
  have hs := h.smooth
  have hdef : Defined m.p := by
    rcases hm with hm | hm
    · rw [hm]; exact fun x => ⟨_, rfl⟩
    · exact hm.1
  obtain ⟨xm, v, e0, m1, m2, m3, m4⟩ := minimizer_ok hS.toSound hs
  have hx : xm = 0 := by
    rcases m1.lt_or_eq with hlt | he
    · have a := m4 hS 0 le_rfl hs.pos ⟨0, by norm_num⟩
      have b := h.least xm hlt m2
      linarith
    · exact he.symm
  subst hx
  obtain ⟨bp, hbp⟩ : ∃ bp, bp = options.add m.breakpoints := ⟨_, rfl⟩
  obtain ⟨s, hd, hs0, hs1⟩ := h.slope
  have hl : findRoot B 0 0 (leftGap T o.p t bp m.p) = .ok 0 := by
    unfold findRoot
    rw [if_pos (by norm_num [precision])]
  have hi : ∃ i : ℚ, T.integrate bp (.of 0) ⊤ m.p = .ok i ∧ 0 ≤ i ∧ i ≤ 1 := by
    rcases hm with hm | hm
    · exact ⟨1, by rw [hm]; exact hI.initial bp, by norm_num, le_rfl⟩
    · exact ⟨0, hI.point bp _ hm.2, le_rfl, by norm_num⟩
  obtain ⟨i, hi, i0, i1⟩ := hi
  have hr : findRoot B 0 u (rightGap T o.p t bp m.p) = .ok 0 := by
    have e1 : rightGap T o.p t bp m.p 0 = .ok (((s - 2 * β * i : ℚ) : WithTop ℚ) : Slack) := by
      simp only [rightGap, hd, hi, hs.switching, idx, List.getElem?_cons_zero, bind, Except.bind]
      rfl
    obtain ⟨v2, e2⟩ := rightGap_ok hT hs bp hdef u
    unfold findRoot
    split
    · rfl
    · simp only [e1, e2, bind, Except.bind]
      rw [if_pos]
      show ((|s - 2 * β * i| : ℚ) : ECost) < _
      rw [WithTop.coe_lt_coe, abs_lt]
      have hp : rootPrecision = 10 := by norm_num [rootPrecision, precision]
      rw [hp]
      obtain ⟨b0, b1⟩ := h.charged
      constructor
      · nlinarith [mul_nonneg b0.le (sub_nonneg.2 i1)]
      · nlinarith [mul_nonneg b0.le i0]
  have hd0 := density_ok hT hs hdef 0 0
  obtain ⟨ex, hex⟩ := hT.integrate bp (.of 0) (.of 0) (fun x => do
      let v ← density T o.p t m.p 0 0 x
      .ok (x * v)) (by
    intro x
    obtain ⟨w, hw⟩ := hd0 x
    exact ⟨x * w, by simp only [hw, bind, Except.bind]⟩)
  refine ⟨⟨density T o.p t m.p 0 0, push (push m.breakpoints 0) 0⟩, ?_, hd0, ?_⟩
  · simp only [bind, Except.bind] at hex
    simp only [probabilistic, hw, hs.dim, hs.bound, assertR, decide_true, if_true, idx, List.getElem?_cons_zero, bind,
      Except.bind, e0, ← hbp, hr, hl, hex]
    by_cases hc : ex < 0 ∨ ex > 0
    · rw [if_pos hc]
    · rw [if_neg hc]
      push Not at hc
      rw [le_antisymm hc.2 hc.1]
  · intro x hx
    exact if_neg fun hc => absurd hc.2 (not_le.2 hx)

theorem zero_run (S : Solver) (hS : Exact S) (B : Brent) (T : Tools) (hT : T.Total) (hI : IgnoresPoints T) (options : Breakpoints)
    (u β : ℚ) (f : Int → ℚ → ℚ) : ∀ (os : List (Online (SSCO ℚ C D))) (k : Nat) (m : Option Memory),
      (∀ m' ∈ m, Defined m'.p ∧ ∀ x, 0 < x → m'.p x = .ok 0) →
      (∀ (i : Nat) o, os[i]? = some o → o.w = 0 ∧ o.p.tEnd = (k : Int) + i + 1 ∧
        LeastAtZero T o.p ((k : Int) + i + 1) u β (f ((k : Int) + i + 1))) →
      ∃ m', Run (fun p : SSCO ℚ C D => p.tEnd) (probabilistic S B T options) (List.replicate k [0]) m os
        (List.replicate (k + os.length) [0]) m' := by
  intro os
  induction os with
  | nil => intro k m _ _; exact ⟨m, .nil _ _⟩
  | cons o os ih =>
    intro k m hm h
    obtain ⟨hw, ht, hp⟩ := h 0 o rfl
    have hd : (m.getD ((probabilistic S B T options).default o)).p = Memory.default.p ∨
        Defined (m.getD ((probabilistic S B T options).default o)).p ∧
          ∀ x, 0 < x → (m.getD ((probabilistic S B T options).default o)).p x = .ok 0 := by
      cases m with
      | none => exact .inl rfl
      | some m => exact .inr (hm m rfl)
    obtain ⟨m1, h1, h2⟩ := zero_step S hS B T hT hI options o hw _ u β _ hp (List.replicate k [0]) _ hd
    obtain ⟨m2, h3⟩ := ih (k + 1) (some m1) (by
      intro m'' h''
      cases h''
      exact h2) (by
      intro i o ho
      have := h (i + 1) o ho
      push_cast at this ⊢
      rwa [show (k : Int) + 1 + i + 1 = k + (i + 1) + 1 by ring])
    rw [List.replicate_succ'] at h3
    refine ⟨m2, .step _ _ _ _ [0] (some m1) _ _ (by simpa using ht) (by simpa using h1) ?_⟩
    rwa [List.length_cons, show k + (os.length + 1) = k + 1 + os.length by omega]

theorem zero_total (β : ℚ) (hβ : 0 ≤ β) (u : ℚ) (f : Int → ℚ → ℚ) : ∀ (zs : Schedule ℚ) (t : Int) (z : ℚ), (∀ y ∈ zs, InBoxQ [(0, u)] y) →
    (∀ i : Nat, i < zs.length → ∀ x, 0 < x → x ≤ u → f (t + i) 0 < f (t + i) x) →
    totalCost (fun t x => ((f t (x.headD 0) : ℚ) : ECost)) (upCost [β]) 1 t [0] (List.replicate zs.length ([0] : Config ℚ)) ≤
      totalCost (fun t x => ((f t (x.headD 0) : ℚ) : ECost)) (upCost [β]) 1 t [z] zs
  | [], _, _, _, _ => le_rfl
  | y :: zs, t, z, hb, hf => by
    have hy := hb y (by simp)
    unfold InBoxQ at hy
    cases hy with
    | @cons _ a _ _ ha hn =>
      cases hn
      have ih := zero_total β hβ u f zs (t + 1) a (fun y h => hb y (by simp [h])) (by
        intro i hi x x0 x1
        have := hf (i + 1) (by simpa using hi) x x0 x1
        push_cast at this
        rwa [show t + ((i : Int) + 1) = t + 1 + i by ring] at this)
      rw [List.length_cons, List.replicate_succ, totalCost, totalCost]
      refine add_le_add ?_ ih
      have h0 : upCost [β] ([0] : Config ℚ) [0] = 0 := by simp [upCost, List.zipWith3]
      have h1 : 0 ≤ upCost [β] ([z] : Config ℚ) [a] := by
        simp only [upCost, List.zipWith3, List.sum_cons, List.sum_nil, add_zero]
        exact mul_nonneg hβ (le_max_left _ _)
      rw [h0, ← WithTop.coe_add, ← WithTop.coe_add, WithTop.coe_le_coe]
      simp only [List.headD_cons]
      have h2 : f t 0 ≤ f t a := by
        rcases (show (0 : ℚ) ≤ a from ha.1).lt_or_eq with hlt | he
        · have := hf 0 (by simp) a hlt ha.2
          simpa using this.le
        · rw [← he]
      linarith

/-- **C83** (what holds). If in every slot the hitting cost is least at 0, and only there, and slopes and switching cost are within the
tolerance of the root finder, then the probabilistic algorithm stays at 0, and no schedule in the decision space costs less. Missing:
all other hitting costs, for which the claim fails (`C83_ratio_counterexample`). -/
theorem C83_zero_partial (S : Solver) (hS : Exact S) (B : Brent) (T : Tools) (hT : T.Total) (hI : IgnoresPoints T)
    (options : Breakpoints) (u β : ℚ) (hβ : 0 ≤ β) (f : Int → ℚ → ℚ) (os : List (Online (SSCO ℚ C D)))
    (h : ∀ (i : Nat) o, os[i]? = some o → o.w = 0 ∧ o.p.tEnd = (i : Int) + 1 ∧
      LeastAtZero T o.p ((i : Int) + 1) u β (f ((i : Int) + 1))) :
    ∃ ys m, Run (fun p : SSCO ℚ C D => p.tEnd) (probabilistic S B T options) [] none os ys m ∧ ys.length = os.length ∧
      ∀ zs : Schedule ℚ, zs.length = os.length → (∀ z ∈ zs, InBoxQ [(0, u)] z) →
        totalCost (fun t x => ((f t (x.headD 0) : ℚ) : ECost)) (upCost [β]) 1 1 [0] ys ≤
          totalCost (fun t x => ((f t (x.headD 0) : ℚ) : ECost)) (upCost [β]) 1 1 [0] zs := by
  obtain ⟨m, hr⟩ := zero_run S hS B T hT hI options u β f os 0 none (by simp) (by simpa using h)
  rw [Nat.zero_add] at hr
  refine ⟨_, m, hr, by simp, fun zs hl hz => ?_⟩
  rw [← hl]
  refine zero_total β hβ u f zs 1 0 hz ?_
  intro i hi x x0 x1
  have hi' : i < os.length := by omega
  have := (h i os[i] (List.getElem?_eq_getElem hi')).2.2.least x x0 x1
  rwa [show (1 : Int) + i = i + 1 by ring]

end

/-- Hitting cost `x` instead of `1 - x`. -/
def rise (t : Int) : SSCO ℚ Unit Unit :=
  { slope t with hittingCost := CostFn.new 1 (SingleCostFn.certain fun _ x => .ok (Cost.raw ((x.headD 0 : ℚ) : ECost))) }

theorem rise_smooth (T t : Int) (ht : 1 ≤ t) : Smooth (rise T) t 1 1 (fun x => x) where
  dim := rfl
  bound := rfl
  pos := by norm_num
  grid := ⟨100, by norm_num⟩
  switching := rfl
  charged := by norm_num
  costs := fun x => ⟨.success (), by rw [rise, CostFn.callCertain_certain _ _ ht]; rfl⟩

open Classical in
/-- Routines that are exact on this instance. -/
noncomputable def riseTools : Tools where
  derivative _ _ := .ok (some (((1 : ℚ) : WithTop ℚ) : Slack))
  second _ _ := .ok (some 0)
  integrate _ _ _ f := if f = Memory.default.p then .ok 1 else .ok 0

/-- Non-vacuity of `C83_zero_partial`: histories of every length. -/
example : ∃ S : Solver, ∀ n : Nat, ∃ ys m, Run (fun p : SSCO ℚ Unit Unit => p.tEnd) (probabilistic S someRoot riseTools .empty) [] none
    ((List.range n).map fun i : Nat => ⟨rise (i + 1), 0⟩) ys m ∧ ys.length = n := by
  obtain ⟨S, h1, -⟩ := exists_exact
  refine ⟨S, fun n => ?_⟩
  obtain ⟨ys, m, h, h2, -⟩ := C83_zero_partial (C := Unit) (D := Unit) S h1 someRoot riseTools
    ⟨fun _ _ _ => ⟨_, rfl⟩, fun _ _ _ => ⟨_, rfl⟩, fun _ _ _ f _ => by
      by_cases hf : f = Memory.default.p
      · exact ⟨1, if_pos hf⟩
      · exact ⟨0, if_neg hf⟩⟩
    ⟨fun bp p hp => if_neg fun hc => by
      have := hp (epsilon / 2) (by norm_num [epsilon])
      rw [hc] at this
      simp only [Memory.default] at this
      rw [if_pos (by norm_num [epsilon])] at this
      injection this with this
      norm_num [epsilon] at this, fun bp => if_pos rfl⟩ .empty 1 1 (by norm_num) (fun _ x => x)
    ((List.range n).map fun i : Nat => ⟨rise (i + 1), 0⟩) (by
      intro i o ho
      rw [List.getElem?_map] at ho
      have hi : i < n := by
        by_contra hc
        rw [List.getElem?_eq_none (by simpa using hc)] at ho
        cases ho
      rw [List.getElem?_range hi] at ho
      cases ho
      refine ⟨rfl, rfl, rise_smooth _ _ (by omega), fun x hx _ => hx, ⟨1, ?_, by norm_num, by norm_num⟩, by norm_num⟩
      simp only [derivative, cost_eq (rise_smooth (i + 1) (i + 1) (by omega)), bind, Except.bind, riseTools]
      show Except.ok (((applyPrecision 1 : ℚ) : WithTop ℚ) : Slack) = _
      rw [(onGrid_iff 1).1 ⟨100, by norm_num⟩])
  exact ⟨ys, m, h, by simpa using h2⟩

end Probabilistic
end Soco
