import Verif.Props.Probabilistic
import Verif.Props.Numerics

/-! # C62: the derivatives that the probabilistic algorithm uses -/

namespace Soco
namespace Probabilistic
open Spec Num Descent

theorem round_near (q : ℚ) : ∃ z : ℤ, applyPrecision q = z / 100 ∧ |(z : ℚ) / 100 - q| ≤ 1 / 200 := by
  obtain ⟨-, -, h3, -, ⟨z, hz⟩, -, -⟩ := C48_apply_precision q q
  have e : applyPrecision q = z / 100 := by rw [hz, precision]; ring
  refine ⟨z, e, ?_⟩
  rw [e] at h3
  norm_num [precision] at h3
  linarith

/-- **C62** (derivatives). Where hitting costs are infinite, their derivative counts as infinite. Elsewhere it is what the
library returns: numbers are rounded to the nearest hundredth, infinities keep their sign, and zero is used if the library
returns no number. -/
theorem C62_derivative (T : Tools) (f : ℚ → Res ECost) (x : ℚ) :
    (f x = .ok ⊤ → derivative T f x = .ok ⊤) ∧
    ∀ v : ℚ, f x = .ok (v : ECost) →
      (∀ s : ℚ, T.derivative f x = .ok (some ((s : WithTop ℚ) : Slack)) →
        ∃ z : ℤ, derivative T f x = .ok (((z / 100 : ℚ) : WithTop ℚ) : Slack) ∧ |(z : ℚ) / 100 - s| ≤ 1 / 200) ∧
      (T.derivative f x = .ok (some ⊤) → derivative T f x = .ok ⊤) ∧
      (T.derivative f x = .ok (some ⊥) → derivative T f x = .ok ⊥) ∧
      (T.derivative f x = .ok none → derivative T f x = .ok (((0 : ℚ) : WithTop ℚ) : Slack)) := by
  constructor
  · intro h
    simp only [derivative, h, bind, Except.bind]
  · intro v h
    refine ⟨fun s hs => ?_, fun hs => ?_, fun hs => ?_, fun hs => ?_⟩
    · obtain ⟨z, h1, h2⟩ := round_near s
      refine ⟨z, ?_, h2⟩
      simp only [derivative, h, hs, bind, Except.bind]
      show Except.ok (roundSlack ((s : WithTop ℚ) : Slack)) = _
      rw [← h1]; rfl
    · simp only [derivative, h, hs, bind, Except.bind]; rfl
    · simp only [derivative, h, hs, bind, Except.bind]; rfl
    · simp only [derivative, h, hs, bind, Except.bind]

/-- **C62** (second derivatives). Likewise for the second derivative, which is rounded to the nearest hundredth. -/
theorem C62_second_derivative (T : Tools) (f : ℚ → Res ECost) (x v : ℚ) (h : f x = .ok (v : ECost)) :
    (∀ s : ℚ, T.second f x = .ok (some s) →
      ∃ z : ℤ, secondDerivative T f x = .ok (z / 100) ∧ |(z : ℚ) / 100 - s| ≤ 1 / 200) ∧
    (T.second f x = .ok none → secondDerivative T f x = .ok 0) := by
  constructor
  · intro s hs
    obtain ⟨z, h1, h2⟩ := round_near s
    refine ⟨z, ?_, h2⟩
    simp only [secondDerivative, h, hs, bind, Except.bind]
    show Except.ok (applyPrecision s) = _
    rw [h1]
  · intro hs
    simp only [secondDerivative, h, hs, bind, Except.bind]

section
variable {C D : Type}

/-- **C62** (infinite costs). At a point with infinite cost the condition for the right end of the new interval is exceeded and
the condition for its left end is not reached, whatever the density: such points count as lying too far to the right, also those
at which too few servers are active. -/
theorem C62_infinite_costs (T : Tools) (p : SSCO ℚ C D) (t : Int) (bp : Breakpoints) (prev : Density) (x β i j : ℚ)
    (hβ : p.switchingCost = [β]) (hx : cost p t x = .ok ⊤) (hi : T.integrate bp (.of x) ⊤ prev = .ok i)
    (hj : T.integrate bp ⊥ (.of x) prev = .ok j) :
    rightGap T p t bp prev x = .ok ⊤ ∧ leftGap T p t bp prev x = .ok ⊥ := by
  have hd := (C62_derivative T (cost p t) x).1 hx
  constructor
  · simp only [rightGap, hd, hβ, idx, List.getElem?_cons_zero, hi, bind, Except.bind]
    rfl
  · simp only [leftGap, hd, hβ, idx, List.getElem?_cons_zero, hj, bind, Except.bind]
    rfl

end

/-- External routines that return fixed values. -/
def exDiffTools : Tools where
  derivative _ _ := .ok (some (((1 / 3 : ℚ) : WithTop ℚ) : Slack))
  second _ _ := .ok none
  integrate _ _ _ _ := .ok 1

/-- At least one server is needed. -/
def exDiffNeed : SSCO ℚ Unit Unit where
  d := 1
  tEnd := 1
  bounds := [2]
  switchingCost := [3]
  hittingCost := CostFn.new 1 (SingleCostFn.certain fun _ x => .ok (Cost.raw (if x.headD 0 < 1 then ⊤ else ((x.headD 0 : ℚ) : ECost))))

theorem exNeed_cost (x : ℚ) : cost exDiffNeed 1 x = .ok (if x < 1 then ⊤ else (x : ECost)) := by
  simp only [cost, exDiffNeed]
  rfl

/-- Non-vacuity: the derivative `1/3` becomes `33/100` at 2; the cost at 0 is infinite. -/
example : ∃ z : ℤ, derivative exDiffTools (cost exDiffNeed 1) 2 = .ok (((z / 100 : ℚ) : WithTop ℚ) : Slack) ∧ |(z : ℚ) / 100 - 1 / 3| ≤ 1 / 200 :=
  ((C62_derivative exDiffTools (cost exDiffNeed 1) 2).2 2 (by rw [exNeed_cost, if_neg (by norm_num)])).1 _ rfl

example := C62_infinite_costs exDiffTools exDiffNeed 1 .empty (fun _ => .ok 0) 0 3 1 1 rfl (by rw [exNeed_cost, if_pos (by norm_num)]) rfl rfl

end Probabilistic
end Soco
