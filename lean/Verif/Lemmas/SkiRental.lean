import Mathlib.Algebra.BigOperators.Group.Finset.Basic
import Mathlib.Algebra.Order.BigOperators.Group.Finset
import Mathlib.Algebra.BigOperators.Ring.Finset
import Mathlib.Tactic.Linarith
import Mathlib.Tactic.NormNum
import Mathlib.Tactic.Ring
import Mathlib.Data.Rat.Lemmas
import Mathlib.Algebra.Order.Ring.Rat

/-! # Keeping servers until their idle cost reaches their switching cost: servers of a single type -/

namespace Soco.Lb

/-- Idle slots of a lane after a slot with load `l`; `W` means inactive. -/
def idleStep (W : Nat) (l : ℤ) (i : Nat → Nat) (j : Nat) : Nat := if (j : ℤ) < l then 0 else min (i j + 1) W

/-- What the idle slots of a lane are worth. -/
def phi (W : Nat) (c : ℚ) (i : Nat) (on : Bool) : ℚ :=
  if i < W then (if on then (W - 1 + i) * c else (W - 1 - i) * c) else if on then (2 * W - 1) * c else 0

theorem lane_step (W : Nat) (hW : 1 ≤ W) (c β : ℚ) (h0 : 0 < c) (hβ : 0 < β) (h1 : W * c ≤ β ∨ W = 1)
    (h2 : β ≤ (W + 1) * c) (i i' : Nat) (hi : i ≤ W) (dem yo yn : Bool) (hd : dem = true → yn = true)
    (hi' : i' = if dem then 0 else min (i + 1) W) :
    (if i' < W then c else 0) + (if i' < W ∧ ¬ i < W then β else 0) + phi W c i' yn ≤
      2 * ((if yn then c else 0) + (if yn = true ∧ ¬ yo = true then β else 0)) + phi W c i yo := by
  have hW' : (1 : ℚ) ≤ W := by exact_mod_cast hW
  have hWc : c ≤ W * c := by nlinarith
  have hWβ : ((W : ℚ) - 1) * c ≤ β := by
    rcases h1 with h | h
    · linarith
    · subst h; simp; exact hβ.le
  have hic : (0 : ℚ) ≤ (i : ℚ) * c := by positivity
  have hWW : (2 * (W : ℚ) - 1) * c ≤ 2 * β + c := by linarith
  unfold phi
  cases dem with
  | true =>
    have hyn := hd rfl
    subst hyn
    simp only [if_true] at hi'
    subst hi'
    by_cases hiW : i < W
    · have hlt : (i : ℚ) * c ≤ (W - 1) * c := by
        have : (i : ℚ) + 1 ≤ W := by exact_mod_cast hiW
        nlinarith
      cases yo <;> simp [hiW, show 0 < W by omega] <;> nlinarith
    · cases yo <;> simp [hiW, show 0 < W by omega] <;> nlinarith
  | false =>
    simp only [Bool.false_eq_true, if_false] at hi'
    by_cases hiW : i < W
    · by_cases hiW' : i + 1 < W
      · have e : i' = i + 1 := by omega
        subst e
        have hlt : ((i : ℚ) + 2) * c ≤ W * c := by
          have : (i : ℚ) + 1 + 1 ≤ W := by exact_mod_cast hiW'
          nlinarith
        cases yo <;> cases yn <;> simp [hiW, hiW'] <;> nlinarith
      · have e : i' = W := by omega
        subst e
        have hii : (i : ℚ) * c = (i' - 1) * c := by
          have : (i' : ℚ) = i + 1 := by exact_mod_cast (show i' = i + 1 by omega)
          rw [this]; ring
        cases yo <;> cases yn <;> simp [hiW] <;> nlinarith
    · have e : i' = W := by omega
      subst e
      cases yo <;> cases yn <;> simp [hiW] <;> nlinarith

/-- The number of active lanes. -/
def act (W m : Nat) (i : Nat → Nat) : ℤ := ((List.range m).countP fun j => decide (i j < W) : Nat)

/-- The numbers of active lanes in the following slots. -/
def rentals (W m : Nat) : (Nat → Nat) → List ℤ → List ℤ
  | _, [] => []
  | i, l :: ls => act W m (idleStep W l i) :: rentals W m (idleStep W l i) ls

/-- What active servers cost, starting with `prev` of them. -/
def lineCost (c β : ℚ) : ℤ → List ℤ → ℚ
  | _, [] => 0
  | prev, x :: xs => c * x + β * max 0 ((x : ℚ) - prev) + lineCost c β x xs

theorem countP_sum (m : Nat) (p : Nat → Prop) [DecidablePred p] :
    (((List.range m).countP fun j => decide (p j) : Nat) : ℚ) = ∑ j ∈ Finset.range m, if p j then (1 : ℚ) else 0 := by
  induction m with
  | zero => simp
  | succ m ih =>
    rw [List.range_succ, List.countP_append, Finset.sum_range_succ, ← ih]
    by_cases h : p m <;> simp [h]

theorem act_sum (W m : Nat) (i : Nat → Nat) : (act W m i : ℚ) = ∑ j ∈ Finset.range m, if i j < W then (1 : ℚ) else 0 := by
  unfold act
  rw [Int.cast_natCast, countP_sum]

theorem threshold_sum (m : Nat) (y : ℤ) (h0 : 0 ≤ y) (hm : y ≤ m) :
    (y : ℚ) = ∑ j ∈ Finset.range m, if (j : ℤ) < y then (1 : ℚ) else 0 := by
  induction m generalizing y with
  | zero =>
    have : y = 0 := by omega
    simp [this]
  | succ m ih =>
    rw [Finset.sum_range_succ]
    by_cases h : y ≤ m
    · rw [← ih y h0 h, if_neg (by omega), add_zero]
    · have e : y = m + 1 := by push_cast at hm; omega
      subst e
      rw [if_pos (by omega)]
      have h1 := ih (m : ℤ) (by omega) (le_refl _)
      have h2 : ∑ x ∈ Finset.range m, (if (x : ℤ) < (m : ℤ) + 1 then (1 : ℚ) else 0) =
          ∑ x ∈ Finset.range m, (if (x : ℤ) < (m : ℤ) then (1 : ℚ) else 0) := by
        apply Finset.sum_congr rfl
        intro x hx
        rw [Finset.mem_range] at hx
        rw [if_pos (by omega), if_pos (by omega)]
      rw [h2, ← h1]
      push_cast
      ring

theorem rise_sum (m : Nat) (y y' : ℤ) (h0 : 0 ≤ y) (hm : y ≤ m) (h0' : 0 ≤ y') (hm' : y' ≤ m) :
    ∑ j ∈ Finset.range m, (if (j : ℤ) < y' ∧ ¬ (j : ℤ) < y then (1 : ℚ) else 0) = max 0 ((y' : ℚ) - y) := by
  rcases le_total y' y with h | h
  · rw [max_eq_left (by have : (y' : ℚ) ≤ y := by exact_mod_cast h
                        linarith)]
    apply Finset.sum_eq_zero
    intro j _
    rw [if_neg (by omega)]
  · rw [max_eq_right (by have : (y : ℚ) ≤ y' := by exact_mod_cast h
                         linarith)]
    rw [threshold_sum m y' h0' hm', threshold_sum m y h0 hm, ← Finset.sum_sub_distrib]
    apply Finset.sum_congr rfl
    intro j _
    split_ifs <;> first | omega | norm_num

theorem rise_le (m : Nat) (p q : Nat → Prop) [DecidablePred p] [DecidablePred q] :
    max 0 ((∑ j ∈ Finset.range m, if q j then (1 : ℚ) else 0) - ∑ j ∈ Finset.range m, if p j then (1 : ℚ) else 0) ≤
      ∑ j ∈ Finset.range m, (if q j ∧ ¬ p j then (1 : ℚ) else 0) := by
  apply max_le
  · apply Finset.sum_nonneg
    intro j _
    split <;> norm_num
  · rw [← Finset.sum_sub_distrib]
    apply Finset.sum_le_sum
    intro j _
    by_cases h1 : q j <;> by_cases h2 : p j <;> simp [h1, h2]

/-- Keeping servers costs at most twice as much as any other way of handling the loads. -/
theorem rental_le (W m : Nat) (hW : 1 ≤ W) (c β : ℚ) (h0 : 0 < c) (hβ : 0 < β) (h1 : W * c ≤ β ∨ W = 1)
    (h2 : β ≤ (W + 1) * c) (ls ys : List ℤ) (h : List.Forall₂ (fun (l y : ℤ) => l ≤ y ∧ 0 ≤ y ∧ y ≤ (m : ℤ)) ls ys)
    (i : Nat → Nat) (hi : ∀ j, i j ≤ W) (y : ℤ) (hy0 : 0 ≤ y) (hym : y ≤ m) :
    lineCost c β (act W m i) (rentals W m i ls) ≤
      2 * lineCost c β y ys + ∑ j ∈ Finset.range m, phi W c (i j) (decide ((j : ℤ) < y)) := by
  induction h generalizing i y with
  | nil =>
    simp only [rentals, lineCost, mul_zero, zero_add]
    apply Finset.sum_nonneg
    intro j _
    unfold phi
    have hW' : (1 : ℚ) ≤ W := by exact_mod_cast hW
    split_ifs with ha hb hb
    · have : (0 : ℚ) ≤ (i j : ℚ) := by positivity
      apply mul_nonneg _ h0.le
      linarith
    · have : (i j : ℚ) + 1 ≤ W := by exact_mod_cast ha
      apply mul_nonneg _ h0.le
      linarith
    · apply mul_nonneg _ h0.le
      linarith
    · exact le_refl _
  | @cons l y' ls ys hl _ ih =>
    obtain ⟨a1, a2, a3⟩ := hl
    set i' := idleStep W l i with hi'
    have hi'' : ∀ j, i' j ≤ W := by
      intro j
      simp only [hi', idleStep]
      split <;> omega
    have := ih i' hi'' y' a2 a3
    simp only [rentals, lineCost]
    have key : ∑ j ∈ Finset.range m, ((if i' j < W then c else 0) + (if i' j < W ∧ ¬ i j < W then β else 0) +
          phi W c (i' j) (decide ((j : ℤ) < y'))) ≤
        ∑ j ∈ Finset.range m, (2 * ((if (j : ℤ) < y' then c else 0) + (if (j : ℤ) < y' ∧ ¬ (j : ℤ) < y then β else 0)) +
          phi W c (i j) (decide ((j : ℤ) < y))) := by
      apply Finset.sum_le_sum
      intro j _
      have := lane_step W hW c β h0 hβ h1 h2 (i j) (i' j) (hi j) (decide ((j : ℤ) < l)) (decide ((j : ℤ) < y))
        (decide ((j : ℤ) < y')) (by simp only [decide_eq_true_eq]; omega) (by simp [hi', idleStep])
      simpa only [decide_eq_true_eq] using this
    have e1 : ∀ (a : ℚ) (p : Nat → Prop) [DecidablePred p], ∑ j ∈ Finset.range m, (if p j then a else 0) =
        a * ∑ j ∈ Finset.range m, if p j then (1 : ℚ) else 0 := by
      intro a p _
      rw [Finset.mul_sum]
      apply Finset.sum_congr rfl
      intro j _
      split <;> simp
    simp only [Finset.sum_add_distrib, ← Finset.mul_sum] at key
    rw [e1 c, e1 β, e1 c, e1 β, ← act_sum, ← threshold_sum m y' a2 a3, rise_sum m y y' hy0 hym a2 a3] at key
    have r := rise_le m (fun j => i j < W) (fun j => i' j < W)
    rw [← act_sum, ← act_sum] at r
    have r' := mul_le_mul_of_nonneg_left r hβ.le
    linarith

end Soco.Lb
